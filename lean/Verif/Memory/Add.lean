import Verif.Memory.Fill

/-!
# Runs of sum and difference of compressed matrices
-/

set_option linter.dupNamespace false
set_option linter.unusedSectionVars false

namespace Verif.Memory

open Verif.Csr Verif.SparseStoch

variable {K : Type} [Field K] [LinearOrder K] [IsStrictOrderedRing K]

/-- The vectors of the accumulator hold what the model of the accumulator says. -/
structure SpaRel (n : Nat) (v : SpaVec K) (s : Spa K) : Prop where
  w : v.w = (List.range n).map s.w
  b : v.b = (List.range n).map s.b
  ls : v.ls = s.ls.map (fun x : Nat => (x : Int))
  cur : v.cur = s.cur
  inside : ∀ p ∈ s.ls, p < n

theorem rd_fn {α : Type} (n : Nat) (f : Nat → α) (p : Nat) (hp : p < n) :
    rd ((List.range n).map f) (p : Int) = .ok (f p) := by
  rw [rd_nat _ p (by simpa using hp)]
  simp

theorem wr_fn {α : Type} (n : Nat) (f : Nat → α) (p : Nat) (x : α) (hp : p < n) :
    wr ((List.range n).map f) (p : Int) x =
      .ok ((List.range n).map fun q => if q = p then x else f q) := by
  rw [wr_nat _ p _ (by simpa using hp)]
  congr 1
  apply List.ext_getElem
  · simp
  · intro q h1 h2
    rw [List.getElem_set]
    simp only [List.getElem_map, List.getElem_range]
    by_cases hq : p = q
    · simp [hq]
    · rw [if_neg hq, if_neg (fun h => hq h.symm)]

theorem spaRel_init (n : Nat) : SpaRel n (SpaVec.init n : SpaVec K) Spa.init := by
  refine ⟨?_, ?_, rfl, rfl, by intro p hp; cases hp⟩
  · simp [SpaVec.init, Spa.init]
  · simp [SpaVec.init, Spa.init]

theorem spaRel_reset (n : Nat) {v : SpaVec K} {s : Spa K} (h : SpaRel n v s) (i : Nat) :
    SpaRel n (v.reset i) (s.reset i) :=
  ⟨h.w, h.b, rfl, rfl, by intro p hp; cases hp⟩

theorem scatter_run (n : Nat) {v : SpaVec K} {s : Spa K} (h : SpaRel n v s) (x : K) (p : Nat)
    (hp : p < n) : ∃ v', v.scatter x p = .ok v' ∧ SpaRel n v' (s.scatter x p) := by
  unfold SpaVec.scatter Spa.scatter
  rw [h.b, rd_fn n s.b p hp, ok_bind, h.cur, h.w]
  by_cases hb : s.b p < s.cur
  · rw [if_pos hb, if_pos hb, wr_fn n s.w p x hp, ok_bind, wr_fn n s.b p s.cur hp, ok_bind]
    refine ⟨_, rfl, ⟨rfl, rfl, ?_, rfl, ?_⟩⟩
    · simp [h.ls]
    · intro q hq
      rcases List.mem_append.1 hq with hq | hq
      · exact h.inside q hq
      · simp only [List.mem_singleton] at hq
        rw [hq]; exact hp
  · rw [if_neg hb, if_neg hb, rd_fn n s.w p hp, ok_bind, wr_fn n s.w p _ hp, ok_bind]
    refine ⟨_, rfl, ⟨?_, rfl, h.ls, rfl, h.inside⟩⟩
    apply List.map_congr_left
    intro q _
    by_cases hq : q = p
    · simp [hq]
    · simp [hq]

theorem scatterList_run (n : Nat) (g : K → K) (cols : List Nat) (hcols : ∀ c ∈ cols, c < n) :
    ∀ (r : List (Nat × K)) (v : SpaVec K) (s : Spa K), (∀ e ∈ r, e.1 < cols.length) →
      SpaRel n v s →
      ∃ v', r.foldlM (fun v e => (do
          let p ← rd (cols.map (fun x : Nat => (x : Int))) (e.1 : Int)
          v.scatter (g e.2) p : Run (SpaVec K))) v = .ok v' ∧ SpaRel n v' (scatterRow g cols s r) := by
  intro r
  induction r with
  | nil => intro v s _ h; exact ⟨v, rfl, h⟩
  | cons e r ih =>
    intro v s hr h
    have hlt := hr e (by simp)
    have hc : cols.getD e.1 0 < n := by
      rw [List.getD_eq_getElem?_getD, List.getElem?_eq_getElem hlt]
      exact hcols _ (List.getElem_mem _)
    obtain ⟨v1, h1, h2⟩ := scatter_run n h (g e.2) (cols.getD e.1 0) hc
    obtain ⟨v2, h3, h4⟩ := ih v1 _ (fun e' he' => hr e' (by simp [he'])) h2
    refine ⟨v2, ?_, h4⟩
    rw [List.foldlM_cons, rd_cast _ _ hlt, ok_bind, h1, ok_bind, h3]

theorem scatterRow_run (n : Nat) (g : K → K) {M : Csr K} (h : M.WF) (cols : List Nat)
    (hcols : ∀ c ∈ cols, c < n) (hc : M.ncols = cols.length) (ia : Nat) (hia : ia < M.nrows)
    {v : SpaVec K} {s : Spa K} (hrel : SpaRel n v s) :
    ∃ v', scatterRowRun g (arraysOf M) (cols.map (fun x : Nat => (x : Int))) ia v = .ok v' ∧
      SpaRel n v' (scatterRow g cols s (M.row ia)) := by
  obtain ⟨v', h1, h2⟩ := scatterList_run n g cols hcols (M.row ia) v s
    (fun e he => hc ▸ h.row_lt ia e he) hrel
  refine ⟨v', ?_, h2⟩
  unfold scatterRowRun
  rw [rd_indptr h ia (by omega), ok_bind, rd_indptr_succ h ia hia, ok_bind, ← h1]
  apply loop_row h ia hia
  intro k c x v hc hx _
  rw [hx, ok_bind, hc, ok_bind]

/-! ## Column maps -/

theorem advanceRun_ok {cnz : List Nat} (hc : cnz.Pairwise (· < ·)) {v : Nat} (hv : v ∈ cnz) :
    ∀ (n ic : Nat), ic ≤ cnz.idxOf v → cnz.idxOf v < ic + n →
      advanceRun (cnz.map (fun x : Nat => (x : Int))) v n ic = .ok ((cnz.idxOf v : Nat) : Int) := by
  intro n
  induction n with
  | zero => intro ic h1 h2; omega
  | succ n ih =>
    intro ic h1 h2
    have hlt := idxOf_lt hv
    have hic : ic < cnz.length := by omega
    rw [advanceRun, rd_cast _ _ hic]
    have hget : cnz.getD ic 0 = cnz[ic] := by simp [hic]
    dsimp only
    rw [hget]
    by_cases he : v = cnz[ic]
    · rw [if_neg (by simpa using he)]
      have := idxOf_getElem (nodup_of_sorted hc) ic hic
      rw [← he] at this
      rw [this]
    · rw [if_pos (by simpa using he)]
      have hne : ic ≠ cnz.idxOf v := by
        intro h
        apply he
        have := getElem_idx hv
        simp only [← h] at this
        exact this.symm
      exact ih (ic + 1) (by omega) (by omega)

theorem colMapRun_ok {cnz : List Nat} (hc : cnz.Pairwise (· < ·)) (nz : List Nat)
    (hn : nz.Pairwise (· < ·)) (hsub : ∀ v ∈ nz, v ∈ cnz) :
    colMapRun (cnz.map (fun x : Nat => (x : Int))) (nz.map (fun x : Nat => (x : Int))) =
      .ok ((nz.map cnz.idxOf).map (fun x : Nat => (x : Int))) := by
  unfold colMapRun
  rw [List.length_map]
  obtain ⟨st, h1, h2⟩ := loop_inv 0 nz.length (Nat.zero_le _)
    (fun (x : List Int × Int) (k : Int) => (match x with
      | (cols, ic) => do
        let v ← rd (nz.map (fun x : Nat => (x : Int))) k
        let ic ← advanceRun (cnz.map (fun x : Nat => (x : Int))) v
          ((cnz.map (fun x : Nat => (x : Int))).length - ic.toNat + 1) ic
        let cols ← wr cols k ic
        pure (cols, ic) : Run (List Int × Int)))
    (fun k x => ∃ ic : Nat, x = (padTo nz.length 0 (((nz.take k).map cnz.idxOf).map
      (fun x : Nat => (x : Int))), (ic : Int)) ∧ ∀ v ∈ nz.drop k, ic ≤ cnz.idxOf v)
    (by
      rintro k _ hk x ⟨ic, rfl, hic⟩
      have hmem : nz[k] ∈ cnz := hsub _ (List.getElem_mem hk)
      have hdrop : nz.drop k = nz[k] :: nz.drop (k + 1) := List.drop_eq_getElem_cons hk
      have hle := hic nz[k] (by rw [hdrop]; exact List.mem_cons_self)
      have hlt := idxOf_lt hmem
      have hadv := advanceRun_ok hc hmem ((cnz.map (fun x : Nat => (x : Int))).length - (ic : Int).toNat + 1)
        ic hle (by simp; omega)
      have hget : nz.getD k 0 = nz[k] := by simp [hk]
      have hwr := wr_pad nz.length (0 : Int) ((cnz.idxOf nz[k] : Nat) : Int)
        (((nz.take k).map cnz.idxOf).map (fun x : Nat => (x : Int))) (by simp; omega)
      have hlen : (((nz.take k).map cnz.idxOf).map (fun x : Nat => (x : Int))).length = k := by
        simp; omega
      rw [hlen] at hwr
      refine ⟨_, ?_, cnz.idxOf nz[k], rfl, ?_⟩
      · dsimp only
        rw [rd_cast _ _ hk, ok_bind, hget, hadv, ok_bind, hwr, ok_bind, pure_ok,
          List.take_succ_eq_append_getElem hk]
        simp only [List.map_append, List.map_cons, List.map_nil]
      · intro v hv
        have hs : (nz.drop k).Pairwise (· < ·) := hn.sublist (List.drop_sublist _ _)
        rw [hdrop, List.pairwise_cons] at hs
        exact Nat.le_of_lt (idxOf_mono hc hmem (hsub v (List.mem_of_mem_drop hv)) (hs.1 v hv)))
    (List.replicate nz.length 0, 0) ⟨0, by simp [padTo], by simp⟩
  obtain ⟨ic, rfl, _⟩ := h2
  rw [show ((0 : Nat) : Int) = 0 from rfl] at h1
  refine Eq.trans (congrArg (fun r => r >>= _) h1) ?_
  rw [ok_bind]
  simp [padTo, pure_ok]

/-! ## Rows of the result -/

/-- The variables of the run hold what the model says. -/
structure AddRel (n alloc nptr : Nat) (x : AddVars K) (st : AddState K) : Prop where
  ia : x.ia = (st.ia : Int)
  ib : x.ib = (st.ib : Int)
  ic : x.ic = (st.ic : Int)
  spa : SpaRel n x.spa st.spa
  out : x.out = outOf (-1) (-1) alloc nptr st.out

theorem addRow_run (n alloc nptr : Nat) (g : K → K) {A B : SSM K} (hA : A.WF) (hB : B.WF)
    (acol bcol : List Nat) (hac : ∀ c ∈ acol, c < n) (hbc : ∀ c ∈ bcol, c < n)
    (hal : A.nz.length = acol.length) (hbl : B.nz.length = bcol.length)
    (x : AddVars K) (st st' : AddState K) (i : Nat) (hrel : AddRel n alloc nptr x st)
    (hia : i ∈ A.nz → st.ia < A.nz.length) (hib : i ∈ B.nz → st.ib < B.nz.length)
    (hic : st.ic < n) (rows : List (List (Nat × K))) (hrows : st.out = Build.ofRows rows)
    (hlen : rows.length = st.ic) (hnp : st.ic + 1 < nptr)
    (hstep : addRow g A B acol bcol alloc st i = .ok st') :
    ∃ x', addRowRun g (arraysOf A.small) (arraysOf B.small) (A.nz.map (fun x : Nat => (x : Int)))
        (B.nz.map (fun x : Nat => (x : Int))) (acol.map (fun x : Nat => (x : Int)))
        (bcol.map (fun x : Nat => (x : Int))) A.diag B.diag x i = .ok x' ∧
      AddRel n alloc nptr x' st' := by
  have hr0 := spaRel_reset n hrel.spa i
  -- the row of the first matrix
  have hr1 : ∃ v1, rowIfRun id (arraysOf A.small) (A.nz.map (fun x : Nat => (x : Int)))
        (acol.map (fun x : Nat => (x : Int))) i x.ia (x.spa.reset i) =
        .ok (v1, (((if i ∈ A.nz then st.ia + 1 else st.ia) : Nat) : Int)) ∧
      SpaRel n v1 (if i ∈ A.nz then scatterRow id acol (st.spa.reset i) (A.small.row st.ia)
        else st.spa.reset i) := by
    unfold rowIfRun
    by_cases hm : i ∈ A.nz
    · obtain ⟨v1, h1, h2⟩ := scatterRow_run n id hA.block acol hac (by rw [hA.cols, hal]) st.ia
        (by rw [hA.rows]; exact hia hm) hr0
      refine ⟨v1, ?_, by rw [if_pos hm]; exact h2⟩
      rw [if_pos (by rw [cast_mem]; exact hm), if_pos hm, hrel.ia, h1, ok_bind]
      rfl
    · refine ⟨x.spa.reset i, ?_, by rw [if_neg hm]; exact hr0⟩
      rw [if_neg (by rw [cast_mem]; exact hm), if_neg hm, hrel.ia]; rfl
  obtain ⟨v1, e1, r1⟩ := hr1
  -- the row of the second matrix
  have hr2 : ∃ v2, rowIfRun g (arraysOf B.small) (B.nz.map (fun x : Nat => (x : Int)))
        (bcol.map (fun x : Nat => (x : Int))) i x.ib v1 =
        .ok (v2, (((if i ∈ B.nz then st.ib + 1 else st.ib) : Nat) : Int)) ∧
      SpaRel n v2 (if i ∈ B.nz then scatterRow g bcol (if i ∈ A.nz then
        scatterRow id acol (st.spa.reset i) (A.small.row st.ia) else st.spa.reset i)
          (B.small.row st.ib)
        else (if i ∈ A.nz then scatterRow id acol (st.spa.reset i) (A.small.row st.ia)
          else st.spa.reset i)) := by
    unfold rowIfRun
    by_cases hm : i ∈ B.nz
    · obtain ⟨v2, h1, h2⟩ := scatterRow_run n g hB.block bcol hbc (by rw [hB.cols, hbl]) st.ib
        (by rw [hB.rows]; exact hib hm) r1
      refine ⟨v2, ?_, by rw [if_pos hm]; exact h2⟩
      rw [if_pos (by rw [cast_mem]; exact hm), if_pos hm, hrel.ib, h1, ok_bind]
      rfl
    · refine ⟨v1, ?_, by rw [if_neg hm]; exact r1⟩
      rw [if_neg (by rw [cast_mem]; exact hm), if_neg hm, hrel.ib]; rfl
  obtain ⟨v2, e2, r2⟩ := hr2
  unfold addRow at hstep
  dsimp only at hstep
  generalize (if i ∈ B.nz then scatterRow g bcol (if i ∈ A.nz then
        scatterRow id acol (st.spa.reset i) (A.small.row st.ia) else st.spa.reset i)
          (B.small.row st.ib)
        else (if i ∈ A.nz then scatterRow id acol (st.spa.reset i) (A.small.row st.ia)
          else st.spa.reset i)) = s2 at r2 hstep
  -- the two diagonal terms
  have hr3 : ∃ v3, diagIfRun (g B.diag) (A.nz.map (fun x : Nat => (x : Int)))
        (B.nz.map (fun x : Nat => (x : Int))) i x.ic v2 = .ok v3 ∧
      SpaRel n v3 (if i ∈ A.nz ∧ i ∉ B.nz then s2.scatter (g B.diag) st.ic else s2) := by
    unfold diagIfRun
    by_cases hm : i ∈ A.nz ∧ i ∉ B.nz
    · obtain ⟨v3, h1, h2⟩ := scatter_run n r2 (g B.diag) st.ic hic
      refine ⟨v3, ?_, by rw [if_pos hm]; exact h2⟩
      rw [if_pos (by rw [cast_mem, cast_mem]; exact hm), hrel.ic, h1]
    · refine ⟨v2, ?_, by rw [if_neg hm]; exact r2⟩
      rw [if_neg (by rw [cast_mem, cast_mem]; exact hm)]; rfl
  obtain ⟨v3, e3, r3⟩ := hr3
  generalize (if i ∈ A.nz ∧ i ∉ B.nz then s2.scatter (g B.diag) st.ic else s2) = s3 at r3 hstep
  have hr4 : ∃ v4, diagIfRun A.diag (B.nz.map (fun x : Nat => (x : Int)))
        (A.nz.map (fun x : Nat => (x : Int))) i x.ic v3 = .ok v4 ∧
      SpaRel n v4 (if i ∈ B.nz ∧ i ∉ A.nz then s3.scatter A.diag st.ic else s3) := by
    unfold diagIfRun
    by_cases hm : i ∈ B.nz ∧ i ∉ A.nz
    · obtain ⟨v4, h1, h2⟩ := scatter_run n r3 A.diag st.ic hic
      refine ⟨v4, ?_, by rw [if_pos hm]; exact h2⟩
      rw [if_pos (by rw [cast_mem, cast_mem]; exact hm), hrel.ic, h1]
    · refine ⟨v3, ?_, by rw [if_neg hm]; exact r3⟩
      rw [if_neg (by rw [cast_mem, cast_mem]; exact hm)]; rfl
  obtain ⟨v4, e4, r4⟩ := hr4
  generalize (if i ∈ B.nz ∧ i ∉ A.nz then s3.scatter A.diag st.ic else s3) = s4 at r4 hstep
  -- the entries of the row
  split at hstep
  · cases hstep
  · rename_i hfit
    have hst' := Except.ok.inj hstep
    have hes := entries_run (-1) (-1) alloc nptr (Build.ofRows rows).indptr
      (fun (o : Out K × Int) (p : Int) => (match o with
        | (o, nzi) => do
          let indices ← wr o.arr.indices o.pos p
          let x ← rd v4.w p
          let data ← wr o.arr.data o.pos x
          pure (⟨⟨o.arr.indptr, indices, data⟩, o.pos + 1⟩, nzi + 1) : Run (Out K × Int)))
      (fun p => (p.toNat, s4.w p.toNat)) (s4.ls.map (fun x : Nat => (x : Int))) (by
        intro b hb es nzr
        obtain ⟨p, hp, rfl⟩ := List.mem_map.1 hb
        have hpn := r4.inside p hp
        simp only [outOf, Int.toNat_natCast]
        by_cases hlt : es.length < alloc
        · rw [if_pos hlt]
          have h1 := wr_pad alloc 0 (s4.w p) (es.map Prod.snd) (by rw [List.length_map]; exact hlt)
          have h2 := wr_pad alloc (-1) ((p : Nat) : Int)
            (es.map fun e => (e.1 : Int)) (by rw [List.length_map]; exact hlt)
          rw [List.length_map] at h1 h2
          rw [h2, ok_bind, r4.w, rd_fn n s4.w p hpn, ok_bind, h1, ok_bind]
          simp [pure_ok]
        · rw [if_neg hlt]
          have h1 := wr_pad_err alloc (-1) ((p : Nat) : Int) (es.map fun e => (e.1 : Int))
            (by rw [List.length_map]; omega)
          rw [List.length_map] at h1
          rw [h1]; rfl)
      (Build.ofRows rows).entries 0 (by rw [hrows] at hfit; omega)
    rw [List.length_map, if_pos (by rw [hrows] at hfit; omega), zero_add] at hes
    have hmm : ((s4.ls.map (fun x : Nat => (x : Int))).map fun p => (p.toNat, s4.w p.toNat)) =
        s4.ls.map fun p => (p, s4.w p) := by
      rw [List.map_map]; simp [Function.comp_def]
    rw [hmm] at hes
    have hp := pointer_run (-1) (-1) alloc nptr rows (s4.ls.map fun p => (p, s4.w p)) (by omega)
    rw [hlen, List.length_map] at hp
    refine ⟨⟨((if i ∈ A.nz then st.ia + 1 else st.ia : Nat) : Int),
      ((if i ∈ B.nz then st.ib + 1 else st.ib : Nat) : Int), (st.ic : Int) + 1, v4, outOf (-1) (-1) alloc nptr
      (Build.ofRows (rows ++ [s4.ls.map fun p => (p, s4.w p)]))⟩, ?_, ?_⟩
    rotate_left
    · rw [← hst']
      exact ⟨rfl, rfl, by push_cast; rfl, r4, by dsimp only; rw [ofRows_snoc, hrows]⟩
    · unfold addRowRun
      dsimp only
      rw [e1, ok_bind]
      dsimp only
      rw [e2, ok_bind]
      dsimp only
      rw [e3, ok_bind, e4, ok_bind, hrel.out, hrows, r4.ls]
      refine Eq.trans (congrArg (fun r => r >>= _) hes) ?_
      rw [ok_bind]
      dsimp only
      rw [hrel.ic]
      cases h1 : rd (outOf (-1) (-1) alloc nptr ⟨(Build.ofRows rows).entries ++
          s4.ls.map (fun p => (p, s4.w p)), (Build.ofRows rows).indptr⟩).arr.indptr (st.ic : Int) with
      | error e => simp only [h1, err_bind] at hp; cases hp
      | ok q =>
        simp only [h1, ok_bind] at hp ⊢
        cases h2 : wr (outOf (-1) (-1) alloc nptr ⟨(Build.ofRows rows).entries ++
            s4.ls.map (fun p => (p, s4.w p)), (Build.ofRows rows).indptr⟩).arr.indptr
            ((st.ic : Int) + 1) (q + (s4.ls.length : Int)) with
        | error e => simp only [h2, err_bind] at hp; cases hp
        | ok w =>
          simp only [h2, ok_bind, pure_ok] at hp ⊢
          rw [← Except.ok.inj hp]

/-- All rows of the result. -/
theorem addLoop_run (g : K → K) {A B : SSM K} (hA : A.WF) (hB : B.WF) (cnz : List Nat)
    (hc : cnz.Pairwise (· < ·)) (hAs : ∀ x ∈ A.nz, x ∈ cnz) (hBs : ∀ x ∈ B.nz, x ∈ cnz)
    (hcs : ∀ x ∈ cnz, x ∈ A.nz ∨ x ∈ B.nz) (alloc : Nat)
    (halloc : A.small.indptr.length + B.small.indptr.length +
      A.small.data.length + B.small.data.length ≤ alloc) :
    ∀ (post pre : List Nat) (x : AddVars K) (st : AddState K), cnz = pre ++ post →
      AddInv g A B cnz pre post st → AddRel cnz.length alloc (cnz.length + 1) x st →
      ∃ x' st', post.foldlM (addRow g A B (A.nz.map cnz.idxOf) (B.nz.map cnz.idxOf) alloc) st = .ok st' ∧
        AddInv g A B cnz cnz [] st' ∧
        (post.map (fun x : Nat => (x : Int))).foldlM (addRowRun g (arraysOf A.small) (arraysOf B.small)
          (A.nz.map (fun x : Nat => (x : Int))) (B.nz.map (fun x : Nat => (x : Int)))
          ((A.nz.map cnz.idxOf).map (fun x : Nat => (x : Int)))
          ((B.nz.map cnz.idxOf).map (fun x : Nat => (x : Int))) A.diag B.diag) x = .ok x' ∧
        AddRel cnz.length alloc (cnz.length + 1) x' st' := by
  intro post
  induction post with
  | nil =>
    intro pre x st hsplit inv hrel
    rw [List.append_nil] at hsplit
    subst hsplit
    exact ⟨x, st, rfl, inv, rfl, hrel⟩
  | cons i post ih =>
    intro pre x st hsplit inv hrel
    obtain ⟨st1, h1, h2⟩ := addRow_step g hA hB cnz hc hAs hBs hcs alloc halloc pre post i hsplit st inv
    have hnd : (pre ++ [i]).Nodup := by
      have := nodup_of_sorted hc
      rw [hsplit, show pre ++ i :: post = (pre ++ [i]) ++ post by simp] at this
      exact (List.nodup_append.1 this).1
    have hcount : ∀ D : SSM K, i ∈ D.nz →
        (pre.filter fun x => decide (x ∈ D.nz)).length < D.nz.length := by
      intro D hm
      have h3 : ((pre ++ [i]).filter fun x => decide (x ∈ D.nz)).length ≤ D.nz.length := by
        apply List.Subperm.length_le
        apply List.subperm_of_subset (hnd.filter _)
        intro y hy
        simpa using (List.mem_filter.1 hy).2
      rw [List.filter_append, List.length_append] at h3
      simp only [List.filter_cons, hm, decide_true, if_true, List.filter_nil, List.length_cons,
        List.length_nil] at h3
      omega
    have hplen : pre.length < cnz.length := by
      rw [hsplit, List.length_append]; simp
    obtain ⟨rows, hr1, hr2, _⟩ := inv.rows
    obtain ⟨x1, h5, h6⟩ := addRow_run cnz.length alloc (cnz.length + 1) g hA hB
      (A.nz.map cnz.idxOf) (B.nz.map cnz.idxOf)
      (by
        intro c hcm
        obtain ⟨v, hv, rfl⟩ := List.mem_map.1 hcm
        exact idxOf_lt (hAs v hv))
      (by
        intro c hcm
        obtain ⟨v, hv, rfl⟩ := List.mem_map.1 hcm
        exact idxOf_lt (hBs v hv))
      (by simp) (by simp) x st st1 i hrel
      (fun hm => by rw [inv.ia]; exact hcount A hm) (fun hm => by rw [inv.ib]; exact hcount B hm)
      (by rw [inv.ic]; exact hplen) rows hr1 (by rw [hr2, inv.ic]) (by rw [inv.ic]; omega) h1
    obtain ⟨x2, st2, h7, h8, h9, h10⟩ := ih (pre ++ [i]) x1 st1 (by rw [hsplit]; simp) h2 h6
    refine ⟨x2, st2, ?_, h8, ?_, h10⟩
    · rw [List.foldlM_cons, h1]; exact h7
    · rw [List.map_cons, List.foldlM_cons, h5, ok_bind]; exact h9

/-- Sum and difference stay inside the arrays, and the arrays start with those of the result of the
model. -/
theorem addRun_ok (g : K → K) {A B : SSM K} (hA : A.WF) (hB : B.WF) :
    ∃ C arr, addWith g A B = .ok C ∧
      addRun g (arraysOf A.small) (arraysOf B.small) (A.nz.map (fun x : Nat => (x : Int)))
        (B.nz.map (fun x : Nat => (x : Int)))
        ((unique (A.nz ++ B.nz)).map (fun x : Nat => (x : Int))) A.diag B.diag = .ok arr ∧
      arr.indptr = (arraysOf C.small).indptr ∧
      (arraysOf C.small).indices <+: arr.indices ∧ C.small.data <+: arr.data := by
  have hmem : ∀ x, x ∈ unique (A.nz ++ B.nz) ↔ x ∈ A.nz ∨ x ∈ B.nz := by
    intro x; rw [mem_unique, List.mem_append]
  have hc := sorted_unique (A.nz ++ B.nz)
  generalize hcnz : unique (A.nz ++ B.nz) = cnz at hmem hc
  have hAs : ∀ x ∈ A.nz, x ∈ cnz := fun x h => (hmem x).2 (Or.inl h)
  have hBs : ∀ x ∈ B.nz, x ∈ cnz := fun x h => (hmem x).2 (Or.inr h)
  have hcs : ∀ x ∈ cnz, x ∈ A.nz ∨ x ∈ B.nz := fun x h => (hmem x).1 h
  have inv0 : AddInv g A B cnz [] cnz ⟨0, 0, 0, Spa.init, Build.empty⟩ := by
    constructor
    · rfl
    · rfl
    · rfl
    · intro p i _
      simp only [Spa.init]
      omega
    · exact ⟨[], rfl, rfl, fun k hk => absurd hk (by simp)⟩
    · simp [Build.empty]
  have hnn : (((arraysOf A.small).data.length : Nat) : Int) + (((arraysOf B.small).data.length : Nat) : Int) +
      (((arraysOf A.small).indptr.length : Nat) : Int) + (((arraysOf B.small).indptr.length : Nat) : Int) =
      ((A.small.indptr.length + B.small.indptr.length + A.small.data.length + B.small.data.length : Nat)
        : Int) := by
    simp only [arraysOf, List.length_map]; push_cast; ring
  generalize hal : A.small.indptr.length + B.small.indptr.length + A.small.data.length +
    B.small.data.length = alloc at hnn
  obtain ⟨x, st, h1, inv, h3, hrel⟩ := addLoop_run g hA hB cnz hc hAs hBs hcs alloc (le_of_eq hal) cnz []
    ⟨0, 0, 0, SpaVec.init cnz.length, outOf (-1) (-1) alloc (cnz.length + 1) Build.empty⟩
    ⟨0, 0, 0, Spa.init, Build.empty⟩ rfl inv0 ⟨rfl, rfl, rfl, spaRel_init _, rfl⟩
  obtain ⟨rows, hr1, hr2, hr3⟩ := inv.rows
  refine ⟨⟨A.size, cnz, ofRows cnz.length rows, A.diag + g B.diag⟩, x.out.arr, ?_, ?_, ?_, ?_, ?_⟩
  · unfold addWith
    dsimp only
    rw [hcnz, hal, colMap_ok hc A.nz hA.sorted hAs 0 (by simp),
      colMap_ok hc B.nz hB.sorted hBs 0 (by simp)]
    dsimp only
    rw [h1]
    dsimp only
    rw [hr1, mkSSM_ofRows _ _ _ _ hr2, unique_sorted hc]
  · unfold addRun
    simp only [hnn]
    have hz : ∀ {α : Type} (n : Nat) (x : α), zeros (n : Int) x = .ok (List.replicate n x) := by
      intro α n x
      unfold zeros
      rw [if_neg (by omega), Int.toNat_natCast]
    have hz2 : zeros (((cnz.map (fun x : Nat => (x : Int))).length : Int) + 1) (-1 : Int) =
        .ok (List.replicate (cnz.length + 1) (-1)) := by
      rw [List.length_map]; exact hz (cnz.length + 1) (-1)
    have hw : wr (List.replicate (cnz.length + 1) (-1 : Int)) 0 0 =
        .ok (padTo (cnz.length + 1) (-1) [(0 : Int)]) := by
      have := wr_pad (cnz.length + 1) (-1 : Int) 0 [] (by simp)
      simpa [padTo] using this
    rw [hz, ok_bind, hz, ok_bind, hz2, ok_bind, colMapRun_ok hc A.nz hA.sorted hAs, ok_bind,
      colMapRun_ok hc B.nz hB.sorted hBs, ok_bind, hw, ok_bind, List.length_map]
    have hstart : (⟨⟨padTo (cnz.length + 1) (-1) [(0 : Int)], List.replicate alloc (-1),
        List.replicate alloc (0 : K)⟩, 0⟩ : Out K) =
        outOf (-1) (-1) alloc (cnz.length + 1) (Build.empty : Build K) := by
      simp [outOf, Build.empty, padTo]
    rw [hstart, h3]
    rfl
  · rw [hrel.out, hr1]
    have : (Build.ofRows rows).indptr.length = cnz.length + 1 := by
      rw [ofRows_indptr]; simp [hr2]
    simp [outOf, padTo, this, arraysOf, ofRows, Build.toCsr]
  · rw [hrel.out, hr1]
    simp only [outOf, arraysOf, ofRows, Build.toCsr, padTo, List.map_map, Function.comp_def]
    exact List.prefix_append _ _
  · rw [hrel.out, hr1]
    exact List.prefix_append _ _

end Verif.Memory
