import Verif.SparseStoch.Lemmas

/-!
# Addition and subtraction of compressed matrices
-/

namespace Verif.SparseStoch

set_option linter.unusedSectionVars false
set_option linter.unusedSimpArgs false

open Verif.Csr

variable {K : Type} [Field K] [LinearOrder K] [IsStrictOrderedRing K]

/-! ## The sparse accumulator -/

/-- Scatter a list of (position, value). -/
def scatterAll (s : Spa K) (L : List (Nat × K)) : Spa K :=
  L.foldl (fun s e => s.scatter e.2 e.1) s

/-- What the accumulator holds after scattering `L` for the current row. -/
structure Holds (s : Spa K) (L : List (Nat × K)) : Prop where
  le : ∀ p, s.b p ≤ s.cur
  occ : ∀ p, p ∈ s.ls ↔ s.b p = s.cur
  nodup : s.ls.Nodup
  pos : ∀ p, p ∈ s.ls ↔ ∃ e ∈ L, e.1 = p
  val : ∀ p ∈ s.ls, s.w p = sumAt L p
  len : s.ls.length ≤ L.length

theorem holds_reset (s : Spa K) (i : Nat) (h : ∀ p, s.b p < i) : Holds (s.reset i) [] := by
  constructor
  · intro p; exact Int.le_of_lt (h p)
  · intro p
    simp only [Spa.reset, List.not_mem_nil, false_iff]
    have := h p
    omega
  · simp [Spa.reset]
  · intro p; simp [Spa.reset]
  · intro p hp; simp [Spa.reset] at hp
  · simp [Spa.reset]

theorem holds_scatter (s : Spa K) (L : List (Nat × K)) (h : Holds s L) (e : Nat × K) :
    Holds (s.scatter e.2 e.1) (L ++ [e]) := by
  unfold Spa.scatter
  split
  · rename_i hb
    have hnew : e.1 ∉ s.ls := fun hm => by have := (h.occ _).1 hm; omega
    constructor
    · intro p
      dsimp only
      split
      · exact Int.le_refl _
      · exact h.le p
    · intro p
      dsimp only
      rw [List.mem_append, List.mem_singleton, h.occ]
      by_cases hp : p = e.1 <;> simp [hp]
    · dsimp only
      rw [List.nodup_append]
      refine ⟨h.nodup, List.nodup_singleton _, ?_⟩
      intro a ha b hb hab
      rw [List.mem_singleton] at hb
      exact hnew (hb ▸ hab ▸ ha)
    · intro p
      dsimp only
      rw [List.mem_append, List.mem_singleton, h.pos]
      constructor
      · rintro (⟨f, hf, rfl⟩ | rfl)
        · exact ⟨f, by simp [hf], rfl⟩
        · exact ⟨e, by simp, rfl⟩
      · rintro ⟨f, hf, rfl⟩
        rw [List.mem_append, List.mem_singleton] at hf
        rcases hf with hf | rfl
        · exact Or.inl ⟨f, hf, rfl⟩
        · exact Or.inr rfl
    · intro p hp
      dsimp only at hp ⊢
      rw [sumAt_append, sumAt_cons, sumAt_nil, add_zero]
      by_cases hpe : p = e.1
      · subst hpe
        rw [if_pos rfl, if_pos rfl, sumAt_eq_zero, zero_add]
        intro f hf hfe
        exact hnew ((h.pos _).2 ⟨f, hf, hfe⟩)
      · rw [if_neg hpe, if_neg (Ne.symm hpe), add_zero]
        rw [List.mem_append, List.mem_singleton] at hp
        exact h.val p (hp.resolve_right hpe)
    · dsimp only
      rw [List.length_append, List.length_append]
      have := h.len
      simp only [List.length_singleton]
      omega
  · rename_i hb
    have hold : e.1 ∈ s.ls := (h.occ _).2 (by have := h.le e.1; omega)
    constructor
    · exact h.le
    · exact h.occ
    · exact h.nodup
    · intro p
      dsimp only
      rw [h.pos]
      constructor
      · rintro ⟨f, hf, rfl⟩
        exact ⟨f, by simp [hf], rfl⟩
      · rintro ⟨f, hf, rfl⟩
        rw [List.mem_append, List.mem_singleton] at hf
        rcases hf with hf | rfl
        · exact ⟨f, hf, rfl⟩
        · exact (h.pos _).1 hold
    · intro p hp
      dsimp only at hp ⊢
      rw [sumAt_append, sumAt_cons, sumAt_nil, add_zero]
      by_cases hpe : p = e.1
      · subst hpe
        rw [if_pos rfl, if_pos rfl, h.val _ hp]
      · rw [if_neg hpe, if_neg (Ne.symm hpe), add_zero, h.val p hp]
    · dsimp only
      rw [List.length_append]
      have := h.len
      omega

theorem holds_scatterAll (L' : List (Nat × K)) : ∀ (s : Spa K) (L : List (Nat × K)),
    Holds s L → Holds (scatterAll s L') (L ++ L') := by
  induction L' with
  | nil => intro s L h; simpa [scatterAll] using h
  | cons e L' ih =>
    intro s L h
    have := ih (s.scatter e.2 e.1) (L ++ [e]) (holds_scatter s L h e)
    simpa [scatterAll] using this

theorem cur_scatter (s : Spa K) (v : K) (p : Nat) : (s.scatter v p).cur = s.cur := by
  unfold Spa.scatter; split <;> rfl

theorem cur_scatterAll (L : List (Nat × K)) : ∀ s : Spa K, (scatterAll s L).cur = s.cur := by
  induction L with
  | nil => intro s; rfl
  | cons e L ih => intro s; exact (ih _).trans (cur_scatter _ _ _)

theorem scatterRow_eq (g : K → K) (cols : List Nat) (s : Spa K) (r : List (Nat × K)) :
    scatterRow g cols s r = scatterAll s (r.map fun e => (cols.getD e.1 0, g e.2)) := by
  unfold scatterRow scatterAll
  rw [List.foldl_map]

theorem scatterAll_append (s : Spa K) (L L' : List (Nat × K)) :
    scatterAll s (L ++ L') = scatterAll (scatterAll s L) L' := by
  unfold scatterAll
  rw [List.foldl_append]

/-- The written row has the accumulated values. -/
theorem sumAt_written (s : Spa K) (L : List (Nat × K)) (h : Holds s L) (c : Nat) :
    sumAt (s.ls.map fun p => (p, s.w p)) c = sumAt L c := by
  by_cases hc : c ∈ s.ls
  · have hn : ((s.ls.map fun p => (p, s.w p)).map Prod.fst).Nodup := by
      rw [List.map_map]
      have : (Prod.fst ∘ fun p => (p, s.w p)) = id := rfl
      rw [this, List.map_id]
      exact h.nodup
    have := sumAt_of_mem _ hn (c, s.w c) (List.mem_map.2 ⟨c, hc, rfl⟩)
    rw [this, h.val c hc]
  · rw [sumAt_eq_zero, sumAt_eq_zero]
    · intro e he hec
      exact hc ((h.pos c).2 ⟨e, he, hec⟩)
    · intro e he hec
      rw [List.mem_map] at he
      obtain ⟨p, hp, rfl⟩ := he
      exact hc (hec ▸ hp)

/-! ## One row of the sum -/

/-- Everything scattered for row `i` of the result. -/
def scattered (g : K → K) (A B : SSM K) (cnz : List Nat) (i : Nat) : List (Nat × K) :=
  (if i ∈ A.nz then (A.small.row (A.nz.idxOf i)).map fun e =>
      ((A.nz.map cnz.idxOf).getD e.1 0, e.2) else []) ++
  (if i ∈ B.nz then (B.small.row (B.nz.idxOf i)).map fun e =>
      ((B.nz.map cnz.idxOf).getD e.1 0, g e.2) else []) ++
  (if i ∈ A.nz ∧ i ∉ B.nz then [(cnz.idxOf i, g B.diag)] else []) ++
  (if i ∈ B.nz ∧ i ∉ A.nz then [(cnz.idxOf i, A.diag)] else [])

/-- Columns of a row renamed into the columns of the result. -/
theorem sumAt_cols (g : K → K) (hg0 : g 0 = 0) (hg : ∀ x y, g (x + y) = g x + g y)
    (r : List (Nat × K)) (nz cnz : List Nat) (hn : nz.Pairwise (· < ·))
    (hc : cnz.Pairwise (· < ·)) (hsub : ∀ x ∈ nz, x ∈ cnz) (hr : ∀ e ∈ r, e.1 < nz.length)
    (c : Nat) (hcl : c < cnz.length) :
    sumAt (r.map fun e => ((nz.map cnz.idxOf).getD e.1 0, g e.2)) c =
      if cnz[c] ∈ nz then g (sumAt r (nz.idxOf cnz[c])) else 0 := by
  have hfg : (r.map fun e => ((nz.map cnz.idxOf).getD e.1 0, g e.2)) =
      (r.map fun e => (e.1, g e.2)).map fun e => ((nz.map cnz.idxOf).getD e.1 0, e.2) := by
    rw [List.map_map]; rfl
  have hget : ∀ k, k < nz.length → (nz.map cnz.idxOf).getD k 0 = cnz.idxOf (nz.getD k 0) := by
    intro k hk
    simp [List.getD_eq_getElem?_getD, hk]
  rw [hfg]
  split
  · rename_i hmem
    have h1 : (nz.map cnz.idxOf).getD (nz.idxOf cnz[c]) 0 = c := by
      rw [hget _ (idxOf_lt hmem), getD_idx hmem, idxOf_getElem (nodup_of_sorted hc)]
    conv_lhs => rw [← h1]
    rw [sumAt_map_inj _ (fun k => (nz.map cnz.idxOf).getD k 0), sumAt_map_scale _ g hg0 hg]
    intro e he h
    rw [h1] at h
    rw [List.mem_map] at he
    obtain ⟨f, hf, rfl⟩ := he
    dsimp only at h ⊢
    rw [hget _ (hr f hf)] at h
    have h2 : nz.getD f.1 0 ∈ nz := by rw [getD_lt (hr f hf)]; exact List.getElem_mem _
    have h3 : nz.getD f.1 0 = cnz[c] := by
      rw [← getD_idx (hsub _ h2), h, getD_lt hcl]
    rw [← h3, getD_lt (hr f hf), idxOf_getElem (nodup_of_sorted hn)]
  · rename_i hmem
    apply sumAt_eq_zero
    intro e he h
    rw [List.mem_map] at he
    obtain ⟨f, hf, rfl⟩ := he
    rw [List.mem_map] at hf
    obtain ⟨f', hf', rfl⟩ := hf
    dsimp only at h
    rw [hget _ (hr f' hf')] at h
    have h2 : nz.getD f'.1 0 ∈ nz := by rw [getD_lt (hr f' hf')]; exact List.getElem_mem _
    apply hmem
    have h3 : nz.getD f'.1 0 = cnz[c] := by
      rw [← getD_idx (hsub _ h2), h, getD_lt hcl]
    rw [← h3]; exact h2

theorem sumAt_scattered (g : K → K) (hg0 : g 0 = 0) (hg : ∀ x y, g (x + y) = g x + g y)
    {A B : SSM K} (hA : A.WF) (hB : B.WF) (cnz : List Nat) (hc : cnz.Pairwise (· < ·))
    (hAs : ∀ x ∈ A.nz, x ∈ cnz) (hBs : ∀ x ∈ B.nz, x ∈ cnz) (i : Nat)
    (hi : i ∈ A.nz ∨ i ∈ B.nz) (c : Nat) (hcl : c < cnz.length) :
    sumAt (scattered g A B cnz i) c = A.dense i cnz[c] + g (B.dense i cnz[c]) := by
  have hic : i ∈ cnz := hi.elim (hAs i) (hBs i)
  have hrA : ∀ e ∈ A.small.row (A.nz.idxOf i), e.1 < A.nz.length := by
    intro e he; have := hA.block.row_lt _ e he; rw [hA.cols] at this; exact this
  have hrB : ∀ e ∈ B.small.row (B.nz.idxOf i), e.1 < B.nz.length := by
    intro e he; have := hB.block.row_lt _ e he; rw [hB.cols] at this; exact this
  have hAr := sumAt_cols id rfl (fun _ _ => rfl) (A.small.row (A.nz.idxOf i)) A.nz cnz hA.sorted
    hc hAs hrA c hcl
  have hBr := sumAt_cols g hg0 hg (B.small.row (B.nz.idxOf i)) B.nz cnz hB.sorted hc hBs hrB c hcl
  have hdiag : ∀ v : K, sumAt [(cnz.idxOf i, v)] c = if i = cnz[c] then v else 0 := by
    intro v
    rw [sumAt_cons, sumAt_nil, add_zero]
    by_cases h : i = cnz[c]
    · rw [if_pos h, if_pos]
      dsimp only
      rw [h, idxOf_getElem (nodup_of_sorted hc)]
    · rw [if_neg h, if_neg]
      dsimp only
      intro h'
      apply h
      have := getElem_idx hic
      simp only [h'] at this
      exact this.symm
  have hAd : i ∈ A.nz → A.dense i cnz[c] =
      if cnz[c] ∈ A.nz then sumAt (A.small.row (A.nz.idxOf i)) (A.nz.idxOf cnz[c]) else 0 := by
    intro h
    split
    · rename_i h2; rw [dense_mem h h2]; rfl
    · rename_i h2
      rw [dense_not_mem (Or.inr h2), if_neg]
      intro h3; exact h2 (h3 ▸ h)
  have hBd : i ∈ B.nz → B.dense i cnz[c] =
      if cnz[c] ∈ B.nz then sumAt (B.small.row (B.nz.idxOf i)) (B.nz.idxOf cnz[c]) else 0 := by
    intro h
    split
    · rename_i h2; rw [dense_mem h h2]; rfl
    · rename_i h2
      rw [dense_not_mem (Or.inr h2), if_neg]
      intro h3; exact h2 (h3 ▸ h)
  have hgi : ∀ (p : Prop) [Decidable p] (x : K), g (if p then x else 0) = if p then g x else 0 := by
    intro p _ x; split
    · rfl
    · exact hg0
  unfold scattered
  rw [sumAt_append, sumAt_append, sumAt_append]
  by_cases h1 : i ∈ A.nz <;> by_cases h2 : i ∈ B.nz
  · simp only [h1, h2, if_true, not_true, and_false, if_false, sumAt_nil, add_zero]
    rw [hBr, hAd h1, hBd h2, hgi]
    congr 1
  · simp only [h1, h2, if_true, if_false, not_true, not_false_iff, and_false, false_and,
      and_true, sumAt_nil, add_zero]
    rw [hdiag, hAd h1, dense_not_mem (Or.inl h2), hgi]
    congr 1
  · simp only [h1, h2, if_true, if_false, not_true, not_false_iff, and_false, false_and,
      and_true, sumAt_nil, add_zero, zero_add]
    rw [hBr, hdiag, hBd h2, dense_not_mem (Or.inl h1), hgi, add_comm]
  · exact absurd hi (by simp [h1, h2])

theorem mem_scattered_lt (g : K → K)
    {A B : SSM K} (hA : A.WF) (hB : B.WF) (cnz : List Nat)
    (hAs : ∀ x ∈ A.nz, x ∈ cnz) (hBs : ∀ x ∈ B.nz, x ∈ cnz) (i : Nat)
    (hi : i ∈ A.nz ∨ i ∈ B.nz) : ∀ e ∈ scattered g A B cnz i, e.1 < cnz.length := by
  have hic : i ∈ cnz := hi.elim (hAs i) (hBs i)
  have key : ∀ (D : SSM K), D.WF → (∀ x ∈ D.nz, x ∈ cnz) → ∀ e ∈ D.small.row (D.nz.idxOf i),
      (D.nz.map cnz.idxOf).getD e.1 0 < cnz.length := by
    intro D hD hs e he
    have hlt := hD.block.row_lt _ e he
    rw [hD.cols] at hlt
    rw [getD_lt (by simpa using hlt), List.getElem_map]
    exact idxOf_lt (hs _ (List.getElem_mem _))
  intro e he
  unfold scattered at he
  rw [List.mem_append, List.mem_append, List.mem_append] at he
  rcases he with ((he | he) | he) | he
  · split at he
    · rw [List.mem_map] at he
      obtain ⟨f, hf, rfl⟩ := he
      exact key A hA hAs f hf
    · simp at he
  · split at he
    · rw [List.mem_map] at he
      obtain ⟨f, hf, rfl⟩ := he
      exact key B hB hBs f hf
    · simp at he
  · split at he
    · simp at he; rw [he]; exact idxOf_lt hic
    · simp at he
  · split at he
    · simp at he; rw [he]; exact idxOf_lt hic
    · simp at he

/-! ## The loop over rows -/

/-- What is known after the rows `pre` of the result. -/
structure AddInv (g : K → K) (A B : SSM K) (cnz pre post : List Nat) (st : AddState K) :
    Prop where
  ia : st.ia = (pre.filter fun x => decide (x ∈ A.nz)).length
  ib : st.ib = (pre.filter fun x => decide (x ∈ B.nz)).length
  ic : st.ic = pre.length
  stale : ∀ p, ∀ i ∈ post, st.spa.b p < i
  rows : ∃ rows, st.out = Build.ofRows rows ∧ rows.length = pre.length ∧
    ∀ k (hk : k < rows.length) (hk' : k < pre.length),
      (∀ e ∈ rows[k], e.1 < cnz.length) ∧
      ∀ c (hcl : c < cnz.length), sumAt rows[k] c = sumAt (scattered g A B cnz pre[k]) c
  len : st.out.entries.length ≤ A.small.indptr.getD st.ia 0 + B.small.indptr.getD st.ib 0 +
    st.ia + st.ib

theorem addRow_step (g : K → K)
    {A B : SSM K} (hA : A.WF) (hB : B.WF) (cnz : List Nat) (hc : cnz.Pairwise (· < ·))
    (hAs : ∀ x ∈ A.nz, x ∈ cnz) (hBs : ∀ x ∈ B.nz, x ∈ cnz)
    (hcs : ∀ x ∈ cnz, x ∈ A.nz ∨ x ∈ B.nz) (alloc : Nat)
    (halloc : A.small.indptr.length + B.small.indptr.length +
      A.small.data.length + B.small.data.length ≤ alloc)
    (pre post : List Nat) (i : Nat) (hsplit : cnz = pre ++ i :: post) (st : AddState K)
    (inv : AddInv g A B cnz pre (i :: post) st) :
    ∃ st', addRow g A B (A.nz.map cnz.idxOf) (B.nz.map cnz.idxOf) alloc st i = .ok st' ∧
      AddInv g A B cnz (pre ++ [i]) post st' := by
  have hicnz : i ∈ cnz := by rw [hsplit]; simp
  have hi := hcs i hicnz
  have hAidx : i ∈ A.nz → A.nz.idxOf i = st.ia := fun h => by
    rw [inv.ia]; exact idxOf_split hc hA.sorted hAs hsplit h
  have hBidx : i ∈ B.nz → B.nz.idxOf i = st.ib := fun h => by
    rw [inv.ib]; exact idxOf_split hc hB.sorted hBs hsplit h
  have hCidx : cnz.idxOf i = st.ic := by
    rw [inv.ic]
    have := idxOf_split hc hc (fun _ h => h) hsplit hicnz
    rw [this]
    congr 1
    apply List.filter_eq_self.2
    intro a ha
    rw [decide_eq_true_eq, hsplit]; simp [ha]
  have hs0 : Holds (st.spa.reset i) [] := holds_reset _ _ (fun p => inv.stale p i (by simp))
  -- the accumulator after the row
  have hs4 : (let s0 := st.spa.reset i
      let s1 := if i ∈ A.nz then scatterRow id (A.nz.map cnz.idxOf) s0 (A.small.row st.ia) else s0
      let s2 := if i ∈ B.nz then scatterRow g (B.nz.map cnz.idxOf) s1 (B.small.row st.ib) else s1
      let s3 := if i ∈ A.nz ∧ i ∉ B.nz then s2.scatter (g B.diag) st.ic else s2
      if i ∈ B.nz ∧ i ∉ A.nz then s3.scatter A.diag st.ic else s3) =
      scatterAll (st.spa.reset i) (scattered g A B cnz i) := by
    dsimp only
    unfold scattered
    rw [scatterAll_append, scatterAll_append, scatterAll_append]
    by_cases h1 : i ∈ A.nz <;> by_cases h2 : i ∈ B.nz
    · simp only [h1, h2, if_true, not_true, and_false, if_false]
      rw [hAidx h1, hBidx h2, scatterRow_eq, scatterRow_eq]
      rfl
    · simp only [h1, h2, if_true, if_false, not_true, not_false_iff, and_false, false_and,
        and_true]
      rw [hAidx h1, hCidx, scatterRow_eq]
      rfl
    · simp only [h1, h2, if_true, if_false, not_true, not_false_iff, and_false, false_and,
        and_true]
      rw [hBidx h2, hCidx, scatterRow_eq]
      rfl
    · exact absurd hi (by simp [h1, h2])
  have hH := holds_scatterAll (scattered g A B cnz i) _ _ hs0
  rw [List.nil_append] at hH
  have hcur : (scatterAll (st.spa.reset i) (scattered g A B cnz i)).cur = i := by
    rw [cur_scatterAll]; rfl
  -- counts
  have hAlt : i ∈ A.nz → st.ia < A.small.nrows := fun h => by
    rw [← hAidx h, hA.rows]; exact idxOf_lt h
  have hBlt : i ∈ B.nz → st.ib < B.small.nrows := fun h => by
    rw [← hBidx h, hB.rows]; exact idxOf_lt h
  have hiaLe : (if i ∈ A.nz then st.ia + 1 else st.ia) ≤ A.small.nrows := by
    split
    · rename_i h; exact hAlt h
    · rw [inv.ia, hA.rows]
      have h1 : A.nz = cnz.filter fun x => decide (x ∈ A.nz) := by
        apply sorted_ext hA.sorted (hc.filter _)
        intro x
        rw [List.mem_filter, decide_eq_true_eq]
        exact ⟨fun h => ⟨hAs x h, h⟩, fun h => h.2⟩
      have h2 : (cnz.filter fun x => decide (x ∈ A.nz)).length = A.nz.length := by rw [← h1]
      rw [hsplit, List.filter_append, List.length_append] at h2
      omega
  have hibLe : (if i ∈ B.nz then st.ib + 1 else st.ib) ≤ B.small.nrows := by
    split
    · rename_i h; exact hBlt h
    · rw [inv.ib, hB.rows]
      have h1 : B.nz = cnz.filter fun x => decide (x ∈ B.nz) := by
        apply sorted_ext hB.sorted (hc.filter _)
        intro x
        rw [List.mem_filter, decide_eq_true_eq]
        exact ⟨fun h => ⟨hBs x h, h⟩, fun h => h.2⟩
      have h2 : (cnz.filter fun x => decide (x ∈ B.nz)).length = B.nz.length := by rw [← h1]
      rw [hsplit, List.filter_append, List.length_append] at h2
      omega
  have hlen : st.out.entries.length +
      (scatterAll (st.spa.reset i) (scattered g A B cnz i)).ls.length ≤
      A.small.indptr.getD (if i ∈ A.nz then st.ia + 1 else st.ia) 0 +
      B.small.indptr.getD (if i ∈ B.nz then st.ib + 1 else st.ib) 0 +
      (if i ∈ A.nz then st.ia + 1 else st.ia) + (if i ∈ B.nz then st.ib + 1 else st.ib) := by
    have h1 := hH.len
    have h2 := inv.len
    have h3 : (scattered g A B cnz i).length ≤
        (if i ∈ A.nz then A.small.indptr.getD (st.ia + 1) 0 - A.small.indptr.getD st.ia 0 + 1
          else 0) +
        (if i ∈ B.nz then B.small.indptr.getD (st.ib + 1) 0 - B.small.indptr.getD st.ib 0 + 1
          else 0) := by
      unfold scattered
      rw [List.length_append, List.length_append, List.length_append]
      by_cases h1 : i ∈ A.nz <;> by_cases h2 : i ∈ B.nz
      · simp only [h1, h2, if_true, not_true, and_false, if_false, List.length_nil,
          List.length_map]
        rw [hAidx h1, hBidx h2, hA.block.row_length _ (hAlt h1), hB.block.row_length _ (hBlt h2)]
        omega
      · simp only [h1, h2, if_true, if_false, not_true, not_false_iff, and_false, false_and,
          and_true, List.length_nil, List.length_map, List.length_singleton]
        rw [hAidx h1, hA.block.row_length _ (hAlt h1)]
      · simp only [h1, h2, if_true, if_false, not_true, not_false_iff, and_false, false_and,
          and_true, List.length_nil, List.length_map, List.length_singleton]
        rw [hBidx h2, hB.block.row_length _ (hBlt h2)]
        omega
      · exact absurd hi (by simp [h1, h2])
    by_cases h4 : i ∈ A.nz <;> by_cases h5 : i ∈ B.nz
    · simp only [h4, h5, if_true] at h3 ⊢
      have := hA.block.mono _ (hAlt h4)
      have := hB.block.mono _ (hBlt h5)
      omega
    · simp only [h4, h5, if_true, if_false] at h3 ⊢
      have := hA.block.mono _ (hAlt h4)
      omega
    · simp only [h4, h5, if_true, if_false] at h3 ⊢
      have := hB.block.mono _ (hBlt h5)
      omega
    · exact absurd hi (by simp [h4, h5])
  have hfit : ¬ alloc < st.out.entries.length +
      (scatterAll (st.spa.reset i) (scattered g A B cnz i)).ls.length := by
    have h1 := hA.block.ptr_le _ _ hiaLe (le_refl _)
    have h2 := hB.block.ptr_le _ _ hibLe (le_refl _)
    have h3 := hA.block.last
    have h4 := hB.block.last
    have h5 := hA.block.ptrLen
    have h6 := hB.block.ptrLen
    omega
  dsimp only at hs4
  refine ⟨⟨if i ∈ A.nz then st.ia + 1 else st.ia, if i ∈ B.nz then st.ib + 1 else st.ib,
    st.ic + 1, scatterAll (st.spa.reset i) (scattered g A B cnz i),
    st.out.push ((scatterAll (st.spa.reset i) (scattered g A B cnz i)).ls.map
      fun p => (p, (scatterAll (st.spa.reset i) (scattered g A B cnz i)).w p))⟩, ?_, ?_⟩
  case refine_1 =>
    unfold addRow
    dsimp only
    rw [hs4, if_neg hfit]
  case refine_2 =>
    obtain ⟨rows, hr1, hr2, hr3⟩ := inv.rows
    constructor
    · dsimp only
      rw [List.filter_append, List.length_append, inv.ia]
      by_cases h : i ∈ A.nz <;> simp [h]
    · dsimp only
      rw [List.filter_append, List.length_append, inv.ib]
      by_cases h : i ∈ B.nz <;> simp [h]
    · dsimp only
      rw [inv.ic]; simp
    · intro p j hj
      dsimp only
      have h1 := hH.le p
      rw [hcur] at h1
      have h2 : i < j := by
        rw [hsplit] at hc
        have := (List.pairwise_append.1 hc).2.1
        exact (List.pairwise_cons.1 this).1 j hj
      omega
    · refine ⟨rows ++ [(scatterAll (st.spa.reset i) (scattered g A B cnz i)).ls.map
        fun p => (p, (scatterAll (st.spa.reset i) (scattered g A B cnz i)).w p)], ?_, ?_, ?_⟩
      case refine_2 => simp [hr2]
      case refine_1 =>
        dsimp only
        rw [hr1, ofRows_snoc]
      case refine_3 =>
        intro k hk hk'
        rcases Nat.lt_or_ge k rows.length with h | h
        · rw [List.getElem_append_left h]
          have h' : k < pre.length := by omega
          have := hr3 k h h'
          rw [List.getElem_append_left h']
          exact this
        · have hk2 : k = rows.length := by
            rw [List.length_append, List.length_singleton] at hk; omega
          subst hk2
          rw [List.getElem_append_right (le_refl _)]
          have : (pre ++ [i])[rows.length] = i := by
            rw [List.getElem_append_right (by omega)]
            simp [hr2]
          rw [this]
          simp only [Nat.sub_self, List.getElem_cons_zero]
          constructor
          · intro e he
            rw [List.mem_map] at he
            obtain ⟨p, hp, rfl⟩ := he
            obtain ⟨f, hf, rfl⟩ := (hH.pos p).1 hp
            exact mem_scattered_lt g hA hB cnz hAs hBs i hi f hf
          · intro c hcl
            exact sumAt_written _ _ hH c
    · dsimp only
      rw [show (Build.push st.out ((scatterAll (st.spa.reset i) (scattered g A B cnz i)).ls.map
        fun p => (p, (scatterAll (st.spa.reset i) (scattered g A B cnz i)).w p))).entries.length =
        st.out.entries.length +
        (scatterAll (st.spa.reset i) (scattered g A B cnz i)).ls.length by
          simp [Build.push]]
      exact hlen

theorem addLoop (g : K → K)
    {A B : SSM K} (hA : A.WF) (hB : B.WF) (cnz : List Nat) (hc : cnz.Pairwise (· < ·))
    (hAs : ∀ x ∈ A.nz, x ∈ cnz) (hBs : ∀ x ∈ B.nz, x ∈ cnz)
    (hcs : ∀ x ∈ cnz, x ∈ A.nz ∨ x ∈ B.nz) (alloc : Nat)
    (halloc : A.small.indptr.length + B.small.indptr.length +
      A.small.data.length + B.small.data.length ≤ alloc) :
    ∀ (post pre : List Nat) (st : AddState K), cnz = pre ++ post →
      AddInv g A B cnz pre post st →
      ∃ st', post.foldlM (addRow g A B (A.nz.map cnz.idxOf) (B.nz.map cnz.idxOf) alloc) st =
        .ok st' ∧ AddInv g A B cnz cnz [] st' := by
  intro post
  induction post with
  | nil =>
    intro pre st hsplit inv
    rw [List.append_nil] at hsplit
    subst hsplit
    exact ⟨st, rfl, inv⟩
  | cons i post ih =>
    intro pre st hsplit inv
    obtain ⟨st1, h1, h2⟩ := addRow_step g hA hB cnz hc hAs hBs hcs alloc halloc pre post i hsplit
      st inv
    obtain ⟨st2, h3, h4⟩ := ih (pre ++ [i]) st1 (by rw [hsplit]; simp) h2
    refine ⟨st2, ?_, h4⟩
    rw [List.foldlM_cons, h1]
    exact h3

theorem addWith_ok (g : K → K) (hg0 : g 0 = 0) (hg : ∀ x y, g (x + y) = g x + g y)
    {A B : SSM K} (hA : A.WF) (hB : B.WF) (hsize : A.size = B.size) :
    ∃ C, addWith g A B = .ok C ∧ C.WF ∧ C.size = A.size ∧ C.nz = unique (A.nz ++ B.nz) ∧
      ∀ i j, C.dense i j = A.dense i j + g (B.dense i j) := by
  have hmem : ∀ x, x ∈ unique (A.nz ++ B.nz) ↔ x ∈ A.nz ∨ x ∈ B.nz := by
    intro x; rw [mem_unique, List.mem_append]
  have hc := sorted_unique (A.nz ++ B.nz)
  generalize hcnz : unique (A.nz ++ B.nz) = cnz at hmem hc
  have hAs : ∀ x ∈ A.nz, x ∈ cnz := fun x h => (hmem x).2 (Or.inl h)
  have hBs : ∀ x ∈ B.nz, x ∈ cnz := fun x h => (hmem x).2 (Or.inr h)
  have hcs : ∀ x ∈ cnz, x ∈ A.nz ∨ x ∈ B.nz := fun x h => (hmem x).1 h
  have inv0 : AddInv g A B cnz [] cnz ⟨0, 0, 0, Spa.init, Build.empty⟩ := by
    constructor
    · rfl
    · rfl
    · rfl
    · intro p i _
      simp only [Spa.init]
      omega
    · exact ⟨[], rfl, rfl, fun k hk => absurd hk (by simp)⟩
    · simp [Build.empty]
  obtain ⟨st, h1, inv⟩ := addLoop g hA hB cnz hc hAs hBs hcs _ (le_refl _) cnz [] _ rfl inv0
  obtain ⟨rows, hr1, hr2, hr3⟩ := inv.rows
  have hWF : (ofRows cnz.length rows).WF := by
    apply wf_ofRows
    intro r hr e he
    obtain ⟨k, hk, rfl⟩ := List.getElem_of_mem hr
    exact (hr3 k hk (by omega)).1 e he
  have hCwf : (SSM.mk A.size cnz (ofRows cnz.length rows) (A.diag + g B.diag)).WF := by
    refine ⟨hc, ?_, hWF, by simp [hr2], rfl⟩
    intro i hi
    rcases hcs i hi with h | h
    · exact hA.inside i h
    · exact hsize ▸ hB.inside i h
  refine ⟨SSM.mk A.size cnz (ofRows cnz.length rows) (A.diag + g B.diag), ?_, hCwf, rfl, rfl, ?_⟩
  · unfold addWith
    dsimp only
    rw [hcnz, colMap_ok hc A.nz hA.sorted hAs 0 (by simp),
      colMap_ok hc B.nz hB.sorted hBs 0 (by simp)]
    dsimp only
    rw [h1]
    dsimp only
    rw [hr1, mkSSM_ofRows _ _ _ _ hr2, unique_sorted hc]
  · intro i j
    by_cases hij : i ∈ cnz ∧ j ∈ cnz
    · rw [dense_mk_mem hij.1 hij.2]
      unfold Csr.val
      have hk : cnz.idxOf i < rows.length := by rw [hr2]; exact idxOf_lt hij.1
      have hk' : cnz.idxOf i < cnz.length := idxOf_lt hij.1
      rw [row_ofRows _ _ _ hk, (hr3 _ hk hk').2 _ (idxOf_lt hij.2)]
      rw [getElem_idx hij.1,
        sumAt_scattered g hg0 hg hA hB cnz hc hAs hBs i (hcs i hij.1) _ (idxOf_lt hij.2),
        getElem_idx hij.2]
    · have h1 : i ∉ cnz ∨ j ∉ cnz := by
        by_contra hc; exact hij (by simpa [not_or] using hc)
      rw [dense_mk_not h1, dense_not_mem (h1.imp (fun h h' => h (hAs _ h')) (fun h h' => h (hAs _ h'))),
        dense_not_mem (h1.imp (fun h h' => h (hBs _ h')) (fun h h' => h (hBs _ h')))]
      split
      · rfl
      · rw [hg0, add_zero]

end Verif.SparseStoch
