import Verif.Groups.Spec
import Verif.Louvain.Props

/-! # Groups are not mixed by the Louvain search -/

set_option linter.dupNamespace false
set_option linter.unusedSectionVars false

namespace Verif.Groups

open Verif.Partition Verif.Louvain

variable {K : Type} [Field K] [LinearOrder K] [IsStrictOrderedRing K] {α : Type}

theorem unmixed_singletons (grp : Nat → α) (n : Nat) : Unmixed grp (singletons n) := by
  intro u v h
  rw [((together_singletons n u v).1 h).1]

theorem unmixed_removeEmpty {grp : Nat → α} {p : Part} (h : Unmixed grp p.clusters) : Unmixed grp (removeEmpty p).clusters := by
  rintro u v ⟨i, hu, hv⟩
  unfold removeEmpty at hu hv
  dsimp only at hu hv
  obtain ⟨c, hc, hcu⟩ := hu
  obtain ⟨c', hc', hcv⟩ := hv
  rw [hc] at hc'
  cases hc'
  have hm : c ∈ p.clusters := List.mem_of_mem_filter (List.mem_of_getElem? hc)
  obtain ⟨k, hk⟩ := List.getElem?_of_mem hm
  exact h u v ⟨k, ⟨c, hk, hcu⟩, ⟨c, hk, hcv⟩⟩

theorem visit_unmixed {grp : Nat → α} (S T : Nat → Nat → K) {p : Part} (h : Consistent p)
    (hT : Closed p.numNodes T grp) (h0 : Unmixed grp p.clusters)
    (it : Finset Int → List Int) (hit : ∀ s x, x ∈ it s ↔ x ∈ s) {v : Nat} (hv : v < p.numNodes)
    (g : K) (p' : Part) (hres : visit S T p.numNodes it p v = .ok (g, p')) :
    Unmixed grp p'.clusters := by
  obtain ⟨g1, p1, h1, _, _, _, _, h6, _⟩ := visit_spec S T h it hit hv
  rw [h1] at hres
  injection hres with hres
  simp only [Prod.mk.injEq] at hres
  obtain ⟨_, rfl⟩ := hres
  rcases h6 with rfl | ⟨cf, hcf, rfl, u, hu, hat⟩
  · exact h0
  · have hul := Finset.mem_range.1 (Finset.mem_filter.1 hu).1
    have hnb := (Finset.mem_filter.1 hu).2
    have hvu : grp v = grp u := by
      rcases hnb with h | h
      · exact hT v hv u hul h.ne'
      · exact (hT u hul v hv h.ne').symm
    obtain ⟨ci, hd, hatv⟩ := h.dict_some hv
    by_cases he : ci = cf
    · subst he
      have : (moveNode p v ci).2 = p := by unfold moveNode; rw [hd]; simp
      rw [this]
      exact h0
    · rw [moveNode_ok h hd hcf he]
      dsimp only
      have key : ∀ k w, At ((p.clusters.modify ci (·.erase v)).modify cf (insert v)) k w → w = v ∧ k = cf ∨ At p.clusters k w := by
        rintro k w ⟨c, hc, hw⟩
        rw [List.getElem?_modify, List.getElem?_modify] at hc
        cases hk : p.clusters[k]? with
        | none => rw [hk] at hc; simp at hc
        | some d =>
          rw [hk] at hc
          simp only [Option.map_eq_map, Option.map_some, Option.some.injEq] at hc
          have hdw : ∀ x, x ∈ (if ci = k then (d.erase v) else d) → x ∈ d := by
            intro x hx
            split at hx
            · exact Finset.mem_of_mem_erase hx
            · exact hx
          by_cases hkf : cf = k
          · rw [if_pos hkf] at hc
            rw [← hc] at hw
            rcases Finset.mem_insert.1 hw with rfl | hw
            · exact .inl ⟨rfl, hkf.symm⟩
            · refine .inr ⟨d, hk, hdw w ?_⟩
              split at hw <;> rename_i hh
              · rw [if_pos hh]; exact hw
              · rw [if_neg hh]; exact hw
          · rw [if_neg hkf] at hc
            rw [← hc] at hw
            refine .inr ⟨d, hk, hdw w ?_⟩
            split at hw <;> rename_i hh
            · rw [if_pos hh]; exact hw
            · rw [if_neg hh]; exact hw
      rintro x y ⟨k, hx, hy⟩
      rcases key k x hx with ⟨rfl, rfl⟩ | hx'
      · rcases key k y hy with ⟨rfl, -⟩ | hy'
        · rfl
        · rw [hvu]
          exact h0 _ _ ⟨k, hat, hy'⟩
      · rcases key k y hy with ⟨rfl, rfl⟩ | hy'
        · rw [hvu]
          exact h0 _ _ ⟨k, hx', hat⟩
        · exact h0 _ _ ⟨k, hx', hy'⟩

theorem sweep_unmixed {grp : Nat → α} (S T : Nat → Nat → K) (it : Nat → Finset Int → List Int)
    (hit : ∀ v s x, x ∈ it v s ↔ x ∈ s) (l : List Nat) (d : K) {p : Part} (h : Consistent p)
    (hT : Closed p.numNodes T grp) (h0 : Unmixed grp p.clusters)
    (hl : ∀ v ∈ l, v < p.numNodes) (g : K) (p' : Part)
    (hres : sweep S T p.numNodes it l d p = .ok (g, p')) : Unmixed grp p'.clusters := by
  induction l generalizing d p with
  | nil =>
    simp only [sweep, Except.ok.injEq, Prod.mk.injEq] at hres
    rw [← hres.2]
    exact h0
  | cons v l ih =>
    obtain ⟨g1, p1, h1, h2, h3, _⟩ := visit_spec S T h (it v) (hit v) (hl v (by simp))
    have h01 := visit_unmixed S T h hT h0 (it v) (hit v) (hl v (by simp)) g1 p1 h1
    simp only [sweep, h1] at hres
    rw [← h3] at hres
    exact ih _ h2 (by rw [h3]; exact hT) h01 (fun u hu => by rw [h3]; exact hl u (by simp [hu])) hres

theorem moveLoop_unmixed {grp : Nat → α} (sc : Sched) (m : Nat) (thr : K) (nSub : Nat) (S T : Nat → Nat → K)
    (steps nLoop : Nat) (dLoop dTot : K) {p : Part} (h : Consistent p)
    (hT : Closed p.numNodes T grp) (h0 : Unmixed grp p.clusters) (g : K) (k : Nat) (p' : Part)
    (hres : moveLoop sc m thr nSub S T p.numNodes steps nLoop dLoop dTot p = .ok (g, k, p')) :
    Unmixed grp p'.clusters := by
  induction steps generalizing nLoop dLoop dTot p with
  | zero => simp [moveLoop] at hres
  | succ steps ih =>
    unfold moveLoop at hres
    have hl : ∀ v ∈ sc.order m nLoop p.numNodes, v < p.numNodes := by
      intro v hv
      exact List.mem_range.1 ((sc.order_perm m nLoop _).mem_iff.1 hv)
    split at hres
    · obtain ⟨g1, p1, h1, h2, h3, _⟩ := sweep_spec S T (sc.listing m nLoop)
        (sc.mem_listing m nLoop) (sc.order m nLoop p.numNodes) 0 h hl
      have h01 := sweep_unmixed S T (sc.listing m nLoop) (sc.mem_listing m nLoop) _ 0 h hT h0 hl
        _ _ h1
      rw [h1] at hres
      simp only at hres
      rw [← h3] at hres
      exact ih _ _ _ h2 (by rw [h3]; exact hT) h01 hres
    · simp only [Except.ok.injEq, Prod.mk.injEq] at hres
      rw [← hres.2.2]
      exact unmixed_removeEmpty h0

theorem aggregate_T (T S : Nat → Nat → K) {p : Part} {mc : Clu K} (h : aggregate T S p = .ok mc) :
    mc.T = fun s t => aggS T p.clusters s t / rowSum p.clusters.length (aggS T p.clusters) s := by
  unfold aggregate at h
  dsimp only at h
  split at h
  · simp at h
  · unfold mkClu at h
    obtain ⟨q, hq, h1, h2, h3⟩ := mk'_none p.clusters.length false
    rw [hq] at h
    split at h
    · injection h with h
      subst h
      rfl
    · simp at h

/-- The group of a cluster. -/
noncomputable def groupOf (grp : Nat → α) (cl : List (Finset Nat)) (s : Nat) : α :=
  grp ((cl.getD s ∅).sup id)

theorem groupOf_eq {grp : Nat → α} {cl : List (Finset Nat)} (h0 : Unmixed grp cl) {s u : Nat} (h : At cl s u) :
    groupOf grp cl s = grp u := by
  have hu := at_getD.2 h
  obtain ⟨x, hx, hm⟩ := Finset.exists_mem_eq_sup (cl.getD s ∅) ⟨u, hu⟩ id
  unfold groupOf
  rw [hm]
  exact h0 _ _ ⟨s, at_getD.1 hx, h⟩

theorem aggS_closed {grp : Nat → α} {T : Nat → Nat → K} {p : Part} (h : Consistent p) (hT : Closed p.numNodes T grp)
    (h0 : Unmixed grp p.clusters) : Closed p.clusters.length (aggS T p.clusters) (groupOf grp p.clusters) := by
  intro s hs t ht hne
  unfold aggS blockSum at hne
  obtain ⟨i, hi, hi'⟩ := Finset.exists_ne_zero_of_sum_ne_zero hne
  obtain ⟨j, hj, hj'⟩ := Finset.exists_ne_zero_of_sum_ne_zero hi'
  have ai := at_getD.1 hi
  have aj := at_getD.1 hj
  rw [groupOf_eq h0 ai, groupOf_eq h0 aj]
  exact hT i (at_lt_n h.1 ai) j (at_lt_n h.1 aj) hj'

theorem metaLoop_unmixed {grp : Nat → α} (sc : Sched) (par : Params K) (T S : Nat → Nat → K) (steps k0 : Nat)
    (delta : K) (stop : Bool) (self : Part) (mc : Clu K) (hself : Consistent self)
    (hpos : 0 < self.numNodes) (hne : ∀ c ∈ self.clusters, c.Nonempty) (hT : Closed self.numNodes T grp)
    (h0 : Unmixed grp self.clusters)
    (hinv : stop = true ∨ (Consistent mc.part ∧ mc.part.numNodes = mc.n ∧
      mc.n = self.clusters.length ∧ Closed mc.n mc.T (groupOf grp self.clusters) ∧
      Unmixed (groupOf grp self.clusters) mc.part.clusters))
    (k : Nat) (p : Part)
    (hres : metaLoop sc par T S steps k0 delta stop self mc = .ok (k, p)) :
    Unmixed grp p.clusters := by
  induction steps generalizing k0 delta stop self mc with
  | zero => simp [metaLoop] at hres
  | succ steps ih =>
    simp only [metaLoop] at hres
    split at hres
    · injection hres with hres
      simp only [Prod.mk.injEq] at hres
      obtain ⟨_, rfl⟩ := hres
      exact h0
    · rename_i hcond
      have hstop : stop ≠ true := fun h => hcond (Or.inr (Or.inl h))
      obtain ⟨hmc, hmn, hlen, hC, hU⟩ := hinv.resolve_left hstop
      split at hres
      · simp at hres
      · rename_i d nl mp hmove
        unfold moveNodes at hmove
        rw [← hmn] at hmove
        obtain ⟨g, k', p1, h1, h2, h3, h4, h5, h6⟩ := moveLoop_spec sc (k0 + 1) par.thr par.nSub mc.S mc.T
          (par.nSub + 1) 1 1 0 hmc (by omega)
        have hU1 := moveLoop_unmixed sc (k0 + 1) par.thr par.nSub mc.S mc.T (par.nSub + 1) 1 1 0 hmc
          (by rw [hmn]; exact hC) hU _ _ _ hmove
        rw [h1] at hmove
        injection hmove with hmove
        simp only [Prod.mk.injEq] at hmove
        obtain ⟨hd, _, rfl⟩ := hmove
        have hp1n : p1.numNodes = self.clusters.length := by rw [h3, hmn, hlen]
        obtain ⟨self', h7, h8, h9, h10, h11⟩ := updatePart_spec hself hne h2 hp1n hpos
        rw [h7] at hres
        simp only at hres
        have h0' : Unmixed grp self'.clusters := by
          intro u v huv
          obtain ⟨i, hu, hv⟩ := id huv
          have hul := at_lt_n h8.1 hu
          have hvl := at_lt_n h8.1 hv
          rw [h9] at hul hvl
          obtain ⟨s, -, hs⟩ := hself.dict_some hul
          obtain ⟨t, -, ht⟩ := hself.dict_some hvl
          have := hU1 s t ((h11 u v s t hs ht).1 huv)
          rwa [groupOf_eq h0 hs, groupOf_eq h0 ht] at this
        split at hres
        · exact ih _ _ _ self' _ h8 (by omega) h10 (by rw [h9]; exact hT) h0' (Or.inl rfl) hres
        · split at hres
          · simp at hres
          · rename_i mc' hagg
            obtain ⟨e1, e2, e3, e4, e5⟩ := aggregate_ok T S hagg
            refine ih _ _ _ self' mc' h8 (by omega) h10 (by rw [h9]; exact hT) h0' (Or.inr
              ⟨e3, by rw [e4, e2], e2, ?_, ?_⟩) hres
            · rw [aggregate_T T S hagg, e2]
              intro s hs t ht hne'
              exact aggS_closed h8 (by rw [h9]; exact hT) h0' s hs t ht fun h => hne' (by
                show aggS T self'.clusters s t / _ = 0
                rw [h, zero_div])
            · rw [e5]
              exact unmixed_singletons _ _

theorem groupOf_singletons (grp : Nat → α) {n i : Nat} (hi : i < n) : groupOf grp (singletons n) i = grp i :=
  groupOf_eq (unmixed_singletons grp n) ((singletons_at n i i).2 ⟨hi, rfl⟩)

/-- **C129**, the search.  If transitions stay in the groups, the Louvain search never puts nodes
of two groups in one cluster: from single nodes, for all covariances that are not negligible, all
random choices and limits. -/
theorem C129_louvain {grp : Nat → α} (sc : Sched) (par : Params K) (c : Clu K) (hfresh : FreshDefault c)
    (hT : Closed c.n c.T grp) (hS : ¬ sIsZero c.n c.S) (k : Nat) (p : Part)
    (hres : findLouvain sc par c = .ok (k, p)) : Unmixed grp p.clusters := by
  unfold FreshDefault mkClu at hfresh
  obtain ⟨q, hq, h1, h2, h3⟩ := mk'_none c.n false
  rw [hq] at hfresh
  split at hfresh
  · rename_i hrows
    injection hfresh with hfresh
    have hpart : c.part = q := by rw [← hfresh]
    unfold findLouvain at hres
    split at hres
    · simp at hres
    · rename_i hn0
      unfold mkClu at hres
      rw [if_pos hrows, hpart, mk'_clusterList] at hres
      have hqe : removeEmpty { numNodes := c.n, clusters := q.clusters, dict := dictOf q.clusters } = q := by
        have := removeEmpty_of_nonempty h1 (by rw [h3]; exact singletons_nonempty _)
        rw [← this]
        unfold removeEmpty
        simp only [h2]
        congr 1 <;> simp
      rw [hqe] at hres
      simp only at hres
      have hg : ∀ i < c.n, groupOf grp q.clusters i = grp i := by
        intro i hi
        rw [h3]
        exact groupOf_singletons grp hi
      refine metaLoop_unmixed sc par c.T c.S _ 0 1 false q _ h1 (by omega) (by rw [h3]; exact singletons_nonempty _)
        (by rw [h2]; exact hT) (by rw [h3]; exact unmixed_singletons _ _) (.inr ⟨h1, h2, by rw [h3]; simp [singletons], ?_, ?_⟩) k p hres
      · intro i hi j hj hne
        dsimp only at hi hj hne
        rw [hg i hi, hg j hj]
        exact hT i hi j hj hne
      · dsimp only
        rw [h3]
        exact unmixed_singletons _ _
  · simp at hfresh

end Verif.Groups
