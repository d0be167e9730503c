import Verif.SparseRound.Gains

/-!
# Rounding errors of the aggregated matrix
-/

set_option linter.unusedSectionVars false

namespace Verif.SparseRound

open Verif.Partition Verif.Csr Verif.Autocov
open Verif.Louvain (aggS blockSum blockSum_lab exists_lab at_lt_n)
open Verif.Rounding (Rounds absSum Near one_le_pow' list_sum_finset length_le)
open Verif.SparseLouvain (SErr SClu mkS sneighs)

variable {K : Type} [Field K] [LinearOrder K] [IsStrictOrderedRing K] {u B : K} {ar : SArith K}

omit [Field K] [LinearOrder K] [IsStrictOrderedRing K] in
theorem fScanDiag_spec (k : Nat) (r rest : List (Nat × K)) (hne : r ≠ [])
    (hs : (r.map Prod.fst).Pairwise (· ≤ ·)) :
    ∃ o, fScanDiag k (r.length - 1) (r ++ rest) = .ok o ∧
      ((o = none ∧ k ∉ r.map Prod.fst) ∨ ∃ d, o = some d ∧ (k, d) ∈ r) := by
  induction r with
  | nil => exact absurd rfl hne
  | cons e r ih =>
    rw [List.map_cons, List.pairwise_cons] at hs
    rw [List.cons_append, fScanDiag]
    by_cases hr : r = []
    · subst hr
      simp only [List.length_cons, List.length_nil]
      rw [if_neg (by omega)]
      split
      · rename_i h
        exact ⟨_, rfl, Or.inr ⟨_, rfl, by rw [← h]; simp⟩⟩
      · rename_i h
        exact ⟨_, rfl, Or.inl ⟨rfl, by simpa using fun h' => h h'.symm⟩⟩
    · have hlen : 0 < r.length := List.length_pos_iff.2 hr
      by_cases h1 : e.1 < k
      · rw [if_pos ⟨h1, by simpa using hlen⟩]
        have : (e :: r).length - 1 - 1 = r.length - 1 := by simp
        rw [this]
        obtain ⟨o, h2, h3⟩ := ih hr hs.2
        refine ⟨o, h2, ?_⟩
        rcases h3 with ⟨h3, h4⟩ | ⟨d, h3, h4⟩
        · refine Or.inl ⟨h3, ?_⟩
          rw [List.map_cons, List.mem_cons, not_or]
          exact ⟨by omega, h4⟩
        · exact Or.inr ⟨d, h3, by simp [h4]⟩
      · rw [if_neg (fun h => h1 h.1)]
        split
        · rename_i h
          exact ⟨_, rfl, Or.inr ⟨_, rfl, by rw [← h]; simp⟩⟩
        · rename_i h
          refine ⟨_, rfl, Or.inl ⟨rfl, ?_⟩⟩
          rw [List.map_cons, List.mem_cons, not_or]
          refine ⟨fun h' => h h'.symm, fun hk => ?_⟩
          have := hs.1 k hk
          omega

omit [Field K] [LinearOrder K] [IsStrictOrderedRing K] in
theorem mem_row_transpose (M : Csr K) {k : Nat} (hk : k < M.ncols) (e : Nat × K) :
    e ∈ M.transpose.row k ↔ e.1 < M.nrows ∧ (k, e.2) ∈ M.row e.1 := by
  unfold Csr.transpose
  rw [row_ofRows_map _ _ _ _ hk, List.mem_flatMap]
  constructor
  · rintro ⟨i, hi, he⟩
    rw [List.mem_map] at he
    obtain ⟨f, hf, rfl⟩ := he
    rw [List.mem_filter] at hf
    have : f.1 = k := by simpa using hf.2
    exact ⟨List.mem_range.1 hi, by rw [← this]; exact hf.1⟩
  · rintro ⟨hi, he⟩
    refine ⟨e.1, List.mem_range.2 hi, List.mem_map.2 ⟨(k, e.2), ?_, rfl⟩⟩
    rw [List.mem_filter]
    exact ⟨he, by simp⟩

omit [Field K] [LinearOrder K] [IsStrictOrderedRing K] in
theorem nodup_row_transpose {M : Csr K} (h : M.NoRepeats) {k : Nat} (hk : k < M.ncols) :
    ((M.transpose.row k).map Prod.fst).Nodup := by
  unfold Csr.transpose
  rw [row_ofRows_map _ _ _ _ hk, List.map_flatMap, List.nodup_flatMap]
  constructor
  · intro i hi
    rw [List.map_map]
    have h1 := h i (List.mem_range.1 hi)
    have h2 : (((M.row i).filter fun e => e.1 == k).map Prod.fst).Nodup :=
      h1.sublist (List.filter_sublist.map _)
    have h3 : ∀ x ∈ ((M.row i).filter fun e => e.1 == k).map Prod.fst, x = k := by
      intro x hx
      obtain ⟨e, he, rfl⟩ := List.mem_map.1 hx
      simpa using (List.mem_filter.1 he).2
    match hl : (M.row i).filter fun e => e.1 == k with
    | [] => rw [hl]; exact List.nodup_nil
    | [a] => rw [hl]; exact List.nodup_singleton _
    | a :: b :: l =>
      rw [hl] at h2 h3
      have ha := h3 a.1 (by simp)
      have hb := h3 b.1 (by simp)
      simp [ha, hb] at h2
  · apply List.Pairwise.imp _ List.nodup_range
    intro i j hij
    rw [Function.onFun, List.disjoint_left]
    intro x hx hx'
    rw [List.map_map, List.mem_map] at hx hx'
    obtain ⟨_, _, rfl⟩ := hx
    obtain ⟨_, _, h'⟩ := hx'
    exact hij h'.symm

/-- The constructor turns a matrix whose stored entries are near the exact ones into a level. -/
theorem level_mk {PT : Csr K} {wt : Weights K} {sym : Bool} {q : Nat} {M : K} {t w : Nat → Nat → K}
    (hwf : PT.WF) (hsq : PT.ncols = PT.nrows)
    (hnear : ∀ k < PT.nrows, ∀ e ∈ PT.row k, Near u q e.2 (t k e.1) (t k e.1))
    (hnr : PT.NoRepeats)
    (hzero : ∀ k < PT.nrows, ∀ j < PT.nrows, j ∉ (PT.row k).map Prod.fst → t k j = 0)
    (hne : ∀ k < PT.nrows, PT.row k ≠ [])
    (hsym : sym = true → ∀ i < PT.nrows, ∀ j < PT.nrows, t i j = t j i)
    (hpos : ∀ i < PT.nrows, ∀ j < PT.nrows, 0 ≤ t i j)
    (hwpos : ∀ i < PT.nrows, ∀ j < PT.nrows, 0 ≤ w i j)
    (hweights : match wt with
      | .scalars a b => ∀ i < PT.nrows, ∀ j < PT.nrows, w i j = a * b
      | .vectors p1 p2 => ∀ i < PT.nrows, ∀ j < PT.nrows, Near u q (p1 i * p2 j) (w i j) (w i j))
    (hmass : ∑ i ∈ Finset.range PT.nrows, ∑ j ∈ Finset.range PT.nrows, (t i j + w i j) ≤ M) :
    SLevel u q PT.nrows M (mkAutocov PT wt sym) t w := by
  have h1 : (mkAutocov PT wt sym).PT = sortIndices PT := rfl
  have hperm : ∀ k < PT.nrows, ((mkAutocov PT wt sym).PT.row k).Perm (PT.row k) := by
    intro k hk
    rw [h1, row_sortIndices _ _ hk]
    exact perm_sortRow PT.ncols (PT.row k) (hwf.row_lt k)
  have rn : ∀ k < PT.nrows, ∀ e ∈ (mkAutocov PT wt sym).PT.row k,
      e.1 < PT.nrows ∧ Near u q e.2 (t k e.1) (t k e.1) := by
    intro k hk e he
    have he' := (hperm k hk).mem_iff.1 he
    exact ⟨hsq ▸ hwf.row_lt k e he', hnear k hk e he'⟩
  have nd : ∀ k < PT.nrows, (((mkAutocov PT wt sym).PT.row k).map Prod.fst).Nodup := by
    intro k hk
    exact ((hperm k hk).map Prod.fst).nodup_iff.2 (hnr k hk)
  have rz : ∀ k < PT.nrows, ∀ j < PT.nrows, j ∉ ((mkAutocov PT wt sym).PT.row k).map Prod.fst →
      t k j = 0 := by
    intro k hk j hj hn
    exact hzero k hk j hj fun h => hn (((hperm k hk).map Prod.fst).mem_iff.2 h)
  have hcsc : (mkAutocov PT wt sym).PTcsc = if sym then sortIndices PT else (sortIndices PT).transpose :=
    rfl
  have hnc : (sortIndices PT).ncols = PT.nrows := by rw [ncols_sortIndices, hsq]
  have hnrs : (sortIndices PT).nrows = PT.nrows := nrows_sortIndices PT
  refine ⟨rn, nd, rz, ?_, ?_, ?_, ?_, hpos, hwpos, hweights, hmass⟩
  · intro k hk e he
    rw [hcsc] at he
    cases sym with
    | true =>
      rw [if_pos rfl] at he
      obtain ⟨a, b⟩ := rn k hk e he
      rw [hsym rfl e.1 a k hk]
      exact ⟨a, b⟩
    | false =>
      rw [if_neg (by simp), mem_row_transpose _ (by rw [hnc]; exact hk), hnrs] at he
      exact ⟨he.1, (rn e.1 he.1 _ he.2).2⟩
  · intro k hk
    rw [hcsc]
    cases sym with
    | true =>
      rw [if_pos rfl]
      exact nd k hk
    | false =>
      rw [if_neg (by simp)]
      apply nodup_row_transpose _ (by rw [hnc]; exact hk)
      intro i hi
      rw [hnrs] at hi
      exact nd i hi
  · intro k hk j hj hn
    rw [hcsc] at hn
    cases sym with
    | true =>
      rw [if_pos rfl] at hn
      rw [hsym rfl j hj k hk]
      exact rz k hk j hj hn
    | false =>
      rw [if_neg (by simp)] at hn
      apply rz j hj k hk
      intro hk'
      obtain ⟨e, he, hek⟩ := List.mem_map.1 hk'
      apply hn
      refine List.mem_map.2 ⟨(j, e.2), ?_, rfl⟩
      rw [mem_row_transpose _ (by rw [hnc]; exact hk), hnrs]
      exact ⟨hj, by rw [← hek]; exact he⟩
  · intro k hk
    have hwf' : (mkAutocov PT wt sym).PT.WF := wf_sortIndices hwf
    have hne' : (mkAutocov PT wt sym).PT.row k ≠ [] := (row_mk_nonempty hwf wt sym hk).2 (hne k hk)
    have hs := sortedRows_sortIndices PT k (by rw [hnrs]; exact hk)
    obtain ⟨o, h2, h3⟩ := fScanDiag_spec k ((mkAutocov PT wt sym).PT.row k) _ hne' hs
    refine ⟨o, ?_, ?_⟩
    · unfold fReadDiag
      rw [drop_row, ← hwf'.row_length k (by rw [h1, hnrs]; exact hk)]
      exact h2
    · rcases h3 with ⟨h3, h4⟩ | ⟨d, h3, h4⟩
      · exact Or.inl ⟨h3, rz k hk k hk h4⟩
      · exact Or.inr ⟨d, h3, (rn k hk _ h4).2⟩

/-! ### Sums over blocks -/

theorem addRows_near (hr : RoundsS u B ar) (hu : 0 ≤ u) (M : Csr K) (rows cols : List Nat)
    (hnd : ∀ i ∈ rows, ((M.row i).map Prod.fst).Nodup) (hc : cols.Nodup)
    (hp : ∀ i ∈ rows, ∀ e ∈ M.row i, 0 ≤ e.2) (q : Nat) (d y D : K) (hd : Near u q d y D)
    (hB : (1 + u) ^ (q + rows.length * cols.length) * (D + pairSum M.val rows cols) ≤ B) :
    Near u (q + rows.length * cols.length)
      (rows.foldl (fun s row => addIn ar (M.row row) cols s) d) (y + pairSum M.val rows cols)
      (D + pairSum M.val rows cols) := by
  induction rows generalizing q d y D with
  | nil => simpa [pairSum] using hd
  | cons i rows ih =>
    have hval : ∀ a ∈ (i :: rows), ∀ j, 0 ≤ M.val a j := by
      intro a ha j
      unfold Csr.val sumAt
      apply List.sum_nonneg
      intro z hz
      obtain ⟨e, he, rfl⟩ := List.mem_map.1 hz
      exact hp a ha e (List.mem_filter.1 he).1
    have s1 : 0 ≤ pairSum M.val rows cols :=
      pairSum_nonneg _ _ _ fun a ha j _ => hval a (by simp [ha]) j
    have s2 : 0 ≤ (cols.map fun j => M.val i j).sum :=
      map_sum_nonneg cols _ fun j _ => hval i (by simp) j
    have e0 : pairSum M.val (i :: rows) cols
        = (cols.map fun j => M.val i j).sum + pairSum M.val rows cols := by
      simp [pairSum]
    have e1 : q + (i :: rows).length * cols.length = q + cols.length + rows.length * cols.length := by
      rw [List.length_cons]
      ring
    have hD := hd.nonneg
    rw [e0, e1] at hB ⊢
    have n1 := addIn_near hr hu (M.row i) (hnd i (by simp)) cols hc (fun j => M.val i j) (q0 := 0)
      (fun e he => by
        have : M.val i e.1 = e.2 := sumAt_of_mem _ (hnd i (by simp)) e he
        rw [this]
        simp [Near, abs_of_nonneg (hp i (by simp) e he)])
      (fun j _ hn => sumAt_eq_zero _ _ fun e he hej => hn (List.mem_map.2 ⟨e, he, hej⟩))
      q (by omega) d y D hd (by
        refine le_trans ?_ hB
        exact mul_le_mul (pow_le_pow_right₀ (by linarith) (by omega)) (by linarith) (by linarith)
          (by positivity))
    have := ih (fun a ha => hnd a (by simp [ha])) (fun a ha => hp a (by simp [ha])) (q + cols.length)
      _ _ _ n1 (by rw [add_assoc D]; exact hB)
    rw [List.foldl_cons, ← add_assoc, ← add_assoc]
    exact this

theorem fSubmat_near (hr : RoundsS u B ar) (hu : 0 ≤ u) (M : Csr K) (rows cols : List Nat)
    (hnd : ∀ i ∈ rows, ((M.row i).map Prod.fst).Nodup) (hc : cols.Nodup)
    (hp : ∀ i ∈ rows, ∀ e ∈ M.row i, 0 ≤ e.2)
    (hB : (1 + u) ^ (rows.length * cols.length) * pairSum M.val rows cols ≤ B) :
    Near u (rows.length * cols.length) (fSubmat ar M rows cols) (pairSum M.val rows cols)
      (pairSum M.val rows cols) := by
  have := addRows_near hr hu M rows cols hnd hc hp 0 0 0 0 Near.zero (by
    rw [zero_add, zero_add]
    exact hB)
  rw [zero_add, zero_add] at this
  unfold fSubmat
  rw [hr.zero]
  exact this

end Verif.SparseRound
