import Verif.Helpers.Props

/-!
# C91: removing empty rows and columns and putting them back
-/

namespace Verif.Helpers

set_option linter.unusedSectionVars false

open Verif.Csr Verif.Autocov
open Verif.SparseStoch (SSM fullRow rebuild rebuildRow rebuild_ok rebuild_fold toFull_ok sorted_ext
  idxOf_split sorted_range nodup_of_sorted idxOf_lt getD_idx dense_mem dense_not_mem)

variable {K : Type} [Field K] [LinearOrder K] [IsStrictOrderedRing K]

/-- The numbers below `n` that are not listed. -/
def others (n : Nat) (zs : List Nat) : List Nat := (List.range n).filter fun i => decide (i ∉ zs)

/-- Number of unlisted numbers below `i`: the position of the row in the small matrix. -/
def rank (zs : List Nat) (i : Nat) : Nat := (others i zs).length

theorem mem_others {n : Nat} {zs : List Nat} {i : Nat} :
    i ∈ others n zs ↔ i < n ∧ i ∉ zs := by
  simp [others]

theorem others_sorted (n : Nat) (zs : List Nat) : (others n zs).Pairwise (· < ·) :=
  (sorted_range n).filter _

theorem length_others (n : Nat) (zs : List Nat) :
    (others n zs).length + ((Finset.range n).filter (· ∈ zs)).card = n := by
  have h1 : (others n zs).length = ((Finset.range n).filter (· ∉ zs)).card := by
    rw [← List.toFinset_card_of_nodup (nodup_of_sorted (others_sorted n zs))]
    congr 1
    ext i
    rw [List.mem_toFinset, mem_others, Finset.mem_filter, Finset.mem_range]
  rw [h1, Nat.add_comm, Finset.card_filter_add_card_filter_not, Finset.card_range]

/-- The listed numbers below `n` are all of them exactly if they are distinct and below. -/
theorem card_listed (n : Nat) (zs : List Nat) :
    ((Finset.range n).filter (· ∈ zs)).card ≤ zs.length ∧
    (((Finset.range n).filter (· ∈ zs)).card = zs.length ↔ zs.Nodup ∧ ∀ z ∈ zs, z < n) := by
  have hsub : (Finset.range n).filter (· ∈ zs) ⊆ zs.toFinset := by
    intro i hi
    exact List.mem_toFinset.2 (Finset.mem_filter.1 hi).2
  have h1 := Finset.card_le_card hsub
  have h2 := List.toFinset_card_le zs
  refine ⟨h1.trans h2, ?_, ?_⟩
  · intro h
    have h3 : zs.toFinset.card = zs.length := by omega
    refine ⟨Multiset.toFinset_card_eq_card_iff_nodup.1 h3, ?_⟩
    have h4 : (Finset.range n).filter (· ∈ zs) = zs.toFinset :=
      Finset.eq_of_subset_of_card_le hsub (by omega)
    intro z hz
    have : z ∈ (Finset.range n).filter (· ∈ zs) := h4 ▸ List.mem_toFinset.2 hz
    exact Finset.mem_range.1 (Finset.mem_filter.1 this).1
  · rintro ⟨hnd, hlt⟩
    rw [← List.toFinset_card_of_nodup hnd]
    congr 1
    ext i
    rw [Finset.mem_filter, Finset.mem_range, List.mem_toFinset]
    exact ⟨fun h => h.2, fun h => ⟨hlt i h, h⟩⟩

theorem foldl_zeroRow (T : Csr K) (zs : List Nat) (n : Nat) :
    (List.range n).foldl (zeroRow T zs (others n zs)) (0, Build.empty) =
      (List.range n).foldl (rebuildRow T (others n zs) 1) (0, Build.empty) := by
  apply List.foldl_ext
  intro st r hr
  have hr' := List.mem_range.1 hr
  unfold zeroRow rebuildRow
  by_cases h : r ∈ zs
  · rw [if_pos h, if_neg (by rw [mem_others]; exact fun h' => h'.2 h), if_pos one_ne_zero]
  · rw [if_neg h, if_pos (mem_others.2 ⟨hr', h⟩)]

theorem map_idxOf_self {l : List Nat} (h : l.Nodup) : l.map (fun i => l.idxOf i) = List.range l.length := by
  apply List.ext_getElem
  · simp
  · intro i h1 h2
    rw [List.getElem_map, List.getElem_range]
    exact h.idxOf_getElem i _

theorem sum_filter_add (l : List Nat) (p : Nat → Bool) (f g : Nat → Nat) :
    (l.map fun i => if p i then f i else g i).sum =
      ((l.filter p).map f).sum + ((l.filter fun i => !p i).map g).sum := by
  induction l with
  | nil => rfl
  | cons a l ih =>
    cases hp : p a <;> simp [hp, ih] <;> omega

theorem length_full (T : Csr K) (hT : T.WF) (n : Nat) (zs : List Nat)
    (hlen : (others n zs).length = T.nrows)
    (hc : ((Finset.range n).filter (· ∈ zs)).card = zs.length) :
    (ofRows n ((List.range n).map (fullRow T (others n zs) 1))).data.length =
      T.data.length + zs.length := by
  have h1 : (ofRows n ((List.range n).map (fullRow T (others n zs) 1))).data.length =
      ((List.range n).map fun i => (fullRow T (others n zs) 1 i).length).sum := by
    simp [ofRows, Build.toCsr, ofRows_entries, List.length_flatten, Function.comp_def]
  have h2 : ((List.range n).map fun i => (fullRow T (others n zs) 1 i).length) =
      (List.range n).map fun i => if decide (i ∉ zs) = true then
        (T.row ((others n zs).idxOf i)).length else 1 := by
    apply List.map_congr_left
    intro i hi
    have hi' := List.mem_range.1 hi
    unfold fullRow
    by_cases hz : i ∈ zs
    · rw [if_neg (fun h => (mem_others.1 h).2 hz), if_pos one_ne_zero, if_neg (by simpa using hz)]
      rfl
    · rw [if_pos (mem_others.2 ⟨hi', hz⟩), if_pos (by simpa using hz), List.length_map]
  have h3 : (((List.range n).filter fun i => decide (i ∉ zs)).map fun i =>
      (T.row ((others n zs).idxOf i)).length).sum = T.data.length := by
    have h4 : (((others n zs).map fun i => (T.row ((others n zs).idxOf i)).length)) =
        ((others n zs).map fun i => (others n zs).idxOf i).map fun a => (T.row a).length := by
      rw [List.map_map]
      rfl
    show ((others n zs).map fun i => (T.row ((others n zs).idxOf i)).length).sum = _
    rw [h4, map_idxOf_self (nodup_of_sorted (others_sorted n zs)), hlen]
    have h5 := hT.flatten_length T.nrows (le_refl _)
    rw [hT.last, List.length_flatten, List.map_map] at h5
    exact h5
  rw [h1, h2, sum_filter_add, h3]
  congr 1
  have hrep : ∀ m : Nat, (List.replicate m 1).sum = m := by simp
  rw [List.map_const', hrep, ← hc]
  have h7 : ((List.range n).filter fun i => !decide (i ∉ zs)).Nodup :=
    List.nodup_range.filter _
  rw [← List.toFinset_card_of_nodup h7]
  congr 1
  ext i
  simp

/-- **C91** (`numpy_rebuild_nnz_rowcol`). The call succeeds exactly if the listed rows are
distinct numbers below the new size; then the result holds ones on the diagonal of the listed
rows and the entries of the small matrix elsewhere, in order, and its arrays are filled
completely. -/
theorem C91_rebuild (T : Csr K) (hT : T.WF) (hsq : T.ncols = T.nrows) (zs : List Nat) :
    ((zs.Nodup ∧ ∀ z ∈ zs, z < T.nrows + zs.length) →
      ∃ M, rebuildZeros T zs = .ok M ∧ M.WF ∧ M.nrows = T.nrows + zs.length ∧
        M.ncols = T.nrows + zs.length ∧ M.data.length = T.data.length + zs.length ∧
        ∀ i < T.nrows + zs.length, ∀ j < T.nrows + zs.length, M.val i j =
          if i ∈ zs ∨ j ∈ zs then (if i = j then 1 else 0) else T.val (rank zs i) (rank zs j)) ∧
    (¬ (zs.Nodup ∧ ∀ z ∈ zs, z < T.nrows + zs.length) → rebuildZeros T zs = .error .index) := by
  have hl := length_others (T.nrows + zs.length) zs
  obtain ⟨hc1, hc2⟩ := card_listed (T.nrows + zs.length) zs
  constructor
  · intro h
    have hlen : (others (T.nrows + zs.length) zs).length = T.nrows := by
      have := hc2.2 h
      omega
    let A : SSM K := ⟨T.nrows + zs.length, others (T.nrows + zs.length) zs, T, 1⟩
    have hA : A.WF := ⟨others_sorted _ _, fun i hi => (mem_others.1 hi).1, hT, hlen.symm,
      by rw [hsq]; exact hlen.symm⟩
    obtain ⟨M, hM, hwf, hn, hcn, hval⟩ := toFull_ok hA
    have hok : rebuildZeros T zs = .ok M := by
      have hreb : rebuild T (others (T.nrows + zs.length) zs) (T.nrows + zs.length) 1 = .ok M := hM
      unfold rebuild at hreb
      rw [hlen] at hreb
      unfold rebuildZeros
      dsimp only
      have ho : ((List.range (T.nrows + zs.length)).filter fun i => decide (i ∉ zs)) =
        others (T.nrows + zs.length) zs := rfl
      rw [ho, hlen, if_neg (lt_irrefl _), foldl_zeroRow]
      split at hreb
      · exact nomatch hreb
      · rename_i hb
        rw [if_neg hb]
        injection hreb with hreb
        rw [hreb]
    refine ⟨M, hok, hwf, hn, hcn, ?_, ?_⟩
    · have hM' := rebuild_ok T (others (T.nrows + zs.length) zs) (T.nrows + zs.length) 1 hT
        (by rw [hsq]; exact hlen.symm) hA.sorted hA.inside
      have hreb : rebuild T (others (T.nrows + zs.length) zs) (T.nrows + zs.length) 1 = .ok M := hM
      rw [hreb] at hM'
      injection hM' with hM'
      rw [hM']
      exact length_full T hT _ zs hlen (hc2.2 h)
    · intro i hi j hj
      rw [hval i j hi]
      have hrank : ∀ i, i < T.nrows + zs.length → i ∉ zs →
          (others (T.nrows + zs.length) zs).idxOf i = rank zs i := by
        intro i hi hz
        have hsplit : List.range (T.nrows + zs.length) =
            List.range i ++ i :: (List.range' (i + 1) (T.nrows + zs.length - i - 1)) := by
          rw [List.range_eq_range', List.range_eq_range',
            show T.nrows + zs.length = i + (1 + (T.nrows + zs.length - i - 1)) by omega,
            ← List.range'_append_1, ← List.range'_append_1]
          simp
        rw [idxOf_split (sorted_range _) (others_sorted _ _)
          (fun x hx => List.mem_range.2 (mem_others.1 hx).1) hsplit (mem_others.2 ⟨hi, hz⟩)]
        unfold rank others
        congr 1
        apply List.filter_congr
        intro x hx
        have := List.mem_range.1 hx
        rw [decide_eq_decide]
        simp only [List.mem_filter, List.mem_range, decide_eq_true_eq]
        exact ⟨fun h => h.2, fun h => ⟨by omega, h⟩⟩
      by_cases hz : i ∈ zs ∨ j ∈ zs
      · rw [if_pos hz, dense_not_mem]
        rcases hz with hz | hz
        · exact Or.inl fun h => (mem_others.1 h).2 hz
        · exact Or.inr fun h => (mem_others.1 h).2 hz
      · rw [if_neg hz]
        rw [not_or] at hz
        rw [dense_mem (mem_others.2 ⟨hi, hz.1⟩) (mem_others.2 ⟨hj, hz.2⟩)]
        show T.val _ _ = _
        rw [hrank i hi hz.1, hrank j hj hz.2]
  · intro h
    have hlt : T.nrows < (others (T.nrows + zs.length) zs).length := by
      have : ((Finset.range (T.nrows + zs.length)).filter (· ∈ zs)).card ≠ zs.length :=
        fun h' => h (hc2.1 h')
      omega
    unfold rebuildZeros
    dsimp only
    exact if_pos hlt

/-! ## Round trip -/

theorem mem_occupied {L : Csr K} {i : Nat} :
    i ∈ occupied L ↔ i < L.nrows ∧ (L.row i ≠ [] ∨ i ∈ L.indices) := by
  unfold occupied
  simp [List.mem_filter]

/-- Row `i` or column `i` has a stored entry. -/
def Used (L : Csr K) (i : Nat) : Prop :=
  (∃ e, e ∈ L.row i) ∨ ∃ r < L.nrows, ∃ e ∈ L.row r, e.1 = i

theorem used_iff {L : Csr K} (hL : L.WF) {i : Nat} (hi : i < L.nrows) :
    i ∈ occupied L ↔ Used L i := by
  rw [mem_occupied]
  have hflat := hL.flatten_rows
  have hfst : (L.indices.zip L.data).map Prod.fst = L.indices := by
    rw [List.map_fst_zip]
    rw [hL.lens]
  unfold Used
  constructor
  · rintro ⟨_, h | h⟩
    · exact Or.inl (List.exists_mem_of_ne_nil _ h)
    · right
      rw [← hfst, ← hflat] at h
      obtain ⟨e, he, rfl⟩ := List.mem_map.1 h
      obtain ⟨r, hr, he⟩ := List.mem_flatten.1 he
      obtain ⟨k, hk, rfl⟩ := List.mem_map.1 hr
      exact ⟨k, List.mem_range.1 hk, e, he, rfl⟩
  · rintro (⟨e, he⟩ | ⟨r, _, e, he, rfl⟩)
    · exact ⟨hi, Or.inl (List.ne_nil_of_mem he)⟩
    · exact ⟨hi, Or.inr (row_sub L r e he).1⟩

theorem occupied_sorted (L : Csr K) : (occupied L).Pairwise (· < ·) := (sorted_range _).filter _

open Classical in
/-- **C91** (`remove_nnz_rowcol` and `numpy_rebuild_nnz_rowcol`). The block that is left after
removing the empty rows and columns holds the values of the kept ones; putting the removed
ones back gives the matrix again, with ones on the diagonal of the removed rows. -/
theorem C91_round_trip (L : Csr K) (hL : L.WF) (hsq : L.ncols = L.nrows) :
    let Ls := (removeNnz L).1
    let nz := (removeNnz L).2.1
    Ls.WF ∧ Ls.nrows = nz.length ∧ Ls.ncols = nz.length ∧ (removeNnz L).2.2 = L.nrows ∧
    nz.Pairwise (· < ·) ∧ (∀ i, i ∈ nz ↔ i < L.nrows ∧ Used L i) ∧
    (∀ i j, (hi : i < nz.length) → (hj : j < nz.length) → Ls.val i j = L.val nz[i] nz[j]) ∧
    ∃ M, rebuildZeros Ls (others L.nrows nz) = .ok M ∧ M.WF ∧ M.nrows = L.nrows ∧
      M.ncols = L.nrows ∧ ∀ i < L.nrows, ∀ j < L.nrows, M.val i j =
        L.val i j + if i = j ∧ ¬ Used L i then 1 else 0 := by
  dsimp only
  have hnz : (removeNnz L).2.1 = occupied L := rfl
  have hsorted := occupied_sorted L
  have hnd := nodup_of_sorted hsorted
  have hLs : (removeNnz L).1 = ofRows (occupied L).length ((occupied L).map fun i =>
      ((L.row i).filter fun e => decide (e.1 ∈ occupied L)).map
        fun e => ((occupied L).idxOf e.1, e.2)) := rfl
  have hwf : (removeNnz L).1.WF := by
    rw [hLs]
    apply wf_ofRows
    intro r hr e he
    obtain ⟨i, _, rfl⟩ := List.mem_map.1 hr
    obtain ⟨f, hf, rfl⟩ := List.mem_map.1 he
    exact idxOf_lt (by simpa using (List.mem_filter.1 hf).2)
  have hn : (removeNnz L).1.nrows = (occupied L).length := by
    rw [hLs]; simp
  have hval : ∀ i j, (hi : i < (occupied L).length) → (hj : j < (occupied L).length) →
      (removeNnz L).1.val i j = L.val (occupied L)[i] (occupied L)[j] := by
    intro i j hi hj
    unfold Csr.val
    rw [hLs, row_ofRows _ _ _ (by simpa using hi), List.getElem_map]
    have h1 : j = (occupied L).idxOf (occupied L)[j] := (hnd.idxOf_getElem j hj).symm
    conv_lhs => rw [h1]
    rw [sumAt_map_inj _ (fun c => (occupied L).idxOf c)]
    · have hmem : (occupied L)[j] ∈ occupied L := List.getElem_mem _
      unfold sumAt
      rw [List.filter_filter]
      congr 2
      apply List.filter_congr
      intro e _
      by_cases h : e.1 = (occupied L)[j]
      · simp [h]
      · simp [h]
    · intro e he h
      have he' : e.1 ∈ occupied L := by simpa using (List.mem_filter.1 he).2
      exact Verif.SparseStoch.idxOf_inj he' (List.getElem_mem _) h
  refine ⟨hwf, hn, by rw [hLs]; rfl, rfl, hsorted, ?_, hval, ?_⟩
  · intro i
    rw [hnz]
    constructor
    · intro h
      have := (mem_occupied.1 h).1
      exact ⟨this, (used_iff hL this).1 h⟩
    · rintro ⟨h1, h2⟩
      exact (used_iff hL h1).2 h2
  · rw [hnz]
    have hzn : (others L.nrows (occupied L)).length + (occupied L).length = L.nrows := by
      have h1 := length_others L.nrows (occupied L)
      have h2 := (card_listed L.nrows (occupied L)).2.2 ⟨hnd, fun z hz => (mem_occupied.1 hz).1⟩
      omega
    have hcols : (removeNnz L).1.ncols = (removeNnz L).1.nrows := by
      rw [hn, hLs]; rfl
    have hsize : (removeNnz L).1.nrows + (others L.nrows (occupied L)).length = L.nrows := by
      rw [hn]; omega
    obtain ⟨M, h1, h2, h3, h4, _, h5⟩ := (C91_rebuild (removeNnz L).1 hwf hcols
      (others L.nrows (occupied L))).1 ⟨nodup_of_sorted (others_sorted _ _), fun z hz => by
        rw [hsize]; exact (mem_others.1 hz).1⟩
    rw [hsize] at h3 h4 h5
    refine ⟨M, h1, h2, h3, h4, ?_⟩
    have hin : ∀ i, i < L.nrows → (i ∈ others L.nrows (occupied L) ↔ i ∉ occupied L) :=
      fun i hi => ⟨fun h => (mem_others.1 h).2, fun h => mem_others.2 ⟨hi, h⟩⟩
    have hrank : ∀ i, i < L.nrows → i ∈ occupied L →
        rank (others L.nrows (occupied L)) i = (occupied L).idxOf i := by
      intro i hi hm
      have hsplit : List.range L.nrows =
          List.range i ++ i :: (List.range' (i + 1) (L.nrows - i - 1)) := by
        rw [List.range_eq_range', List.range_eq_range',
          show L.nrows = i + (1 + (L.nrows - i - 1)) by omega,
          ← List.range'_append_1, ← List.range'_append_1]
        simp
      rw [idxOf_split (sorted_range _) hsorted
        (fun x hx => List.mem_range.2 (mem_occupied.1 hx).1) hsplit hm]
      unfold rank
      rw [others]
      congr 1
      apply List.filter_congr
      intro x hx
      have hx' := List.mem_range.1 hx
      rw [decide_eq_decide, hin x (by omega), not_not]
    intro i hi j hj
    rw [h5 i hi j hj]
    have hi2 := hin i hi
    have hj2 := hin j hj
    by_cases hio : i ∈ occupied L
    · by_cases hjo : j ∈ occupied L
      · rw [if_neg (by tauto), hrank i hi hio, hrank j hj hjo,
          hval _ _ (idxOf_lt hio) (idxOf_lt hjo), if_neg, add_zero]
        · rw [List.getElem_idxOf, List.getElem_idxOf]
        · rintro ⟨_, h⟩
          exact h ((used_iff hL hi).1 hio)
      · rw [if_pos (Or.inr (hj2.2 hjo))]
        have hij : i ≠ j := fun h => hjo (h ▸ hio)
        rw [if_neg hij, if_neg (fun h => hij h.1), add_zero]
        symm
        apply sumAt_eq_zero
        intro e he h
        exact hjo ((used_iff hL hj).2 (Or.inr ⟨i, hi, e, he, h⟩))
    · rw [if_pos (Or.inl (hi2.2 hio))]
      have hzero : L.val i j = 0 := by
        apply sumAt_eq_zero
        intro e he _
        exact hio ((used_iff hL hi).2 (Or.inl ⟨e, he⟩))
      rw [hzero, zero_add]
      have : ¬ Used L i := fun h => hio ((used_iff hL hi).2 h)
      by_cases hij : i = j
      · rw [if_pos hij, if_pos ⟨hij, this⟩]
      · rw [if_neg hij, if_neg (fun h => hij h.1)]

/-! ## Concrete cases -/

/-- Four nodes; the second is isolated and the fourth only receives. -/
def exL : Csr ℚ := ofRows 4 [[(0, 1 / 2), (3, 1 / 2)], [], [(2, 1)], []]

/-- Non-vacuity of `C91_rebuild` and `C91_round_trip`. -/
example : exL.WF ∧ exL.ncols = exL.nrows ∧ occupied exL = [0, 2, 3] ∧
    others 4 (occupied exL) = [1] ∧ [1, 5].Nodup ∧ (∀ z ∈ [1, 5], z < exL.nrows + 2) :=
  ⟨wf_ofRows _ _ (by decide +kernel), by decide, by decide +kernel, by decide +kernel, by decide,
    by decide +kernel⟩

end Verif.Helpers
