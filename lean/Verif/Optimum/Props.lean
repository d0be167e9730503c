import Verif.Optimum.Lemmas
import Verif.Mirror.Props
import Verif.Groups.Props
import Verif.Average.Cut

/-!
# Quality of the communities found: properties C132 and C133
-/

set_option linter.dupNamespace false
set_option linter.unusedSectionVars false

namespace Verif.Optimum

open Verif.Partition Verif.Louvain

variable {K : Type} [Field K] [LinearOrder K] [IsStrictOrderedRing K]

/-- The last level of the search, read on the nodes. -/
theorem joins_lose (sc : Sched) {par : Params K} (hthr : 0 ≤ par.thr) (h1 : par.thr < 1) (hsub : 2 ≤ par.nSub)
    {T S : Nat → Nat → K} {self p : Part} {mc : Clu K} (hL : Level T S self mc) (hR : Rigid self.numNodes S par.thr)
    {m nl : Nat} {d : K} {mp : Part} (hd : d ≤ par.thr)
    (hmove : moveNodes sc m par.thr par.nSub mc (par.nSub + 1) = .ok (d, nl, mp)) (hup : updatePart self mp = .ok p)
    {A B : Finset Nat} (hA : A ∈ p.clusters) (hB : B ∈ p.clusters) (hne : A ≠ B) (hadj : Adjacent T A B)
    {cl : List (Finset Nat)} (hcl : JoinOf A B p.clusters cl) :
    inside self.numNodes S cl + par.thr < inside self.numNodes S p.clusters := by
  obtain ⟨p', e1, e2, e3, e4, -, -, e7, e8⟩ := level_phase sc par hL m hmove
  rw [hup] at e1
  cases e1
  have hmcne : ∀ c ∈ mc.part.clusters, c.Nonempty := by rw [hL.single]; exact singletons_nonempty _
  obtain ⟨rfl, hm⟩ := phase_still sc m hthr h1 hsub hL.part hL.num (rigid_level hL hR) hmcne hmove hd
  have hsame : ∀ u v, Together p.clusters u v ↔ Together self.clusters u v := by
    intro u v
    refine ⟨fun h => ?_, e7 u v⟩
    obtain ⟨s, -, hs⟩ := hL.own.dict_some (e3 ▸ together_lt e2.1 h)
    obtain ⟨t, -, ht⟩ := hL.own.dict_some (e3 ▸ together_lt e2.1 (together_symm h))
    rw [e8 u v s t hs ht, hL.single, together_singletons] at h
    obtain ⟨rfl, -⟩ := h
    exact ⟨s, hs, ht⟩
  obtain ⟨i, hi, j, hj, hij⟩ := hadj
  obtain ⟨a, ha⟩ := List.getElem?_of_mem hA
  obtain ⟨b, hb⟩ := List.getElem?_of_mem hB
  have hAi : At p.clusters a i := ⟨A, ha, hi⟩
  have hBj : At p.clusters b j := ⟨B, hb, hj⟩
  have hab : a ≠ b := by
    rintro rfl
    rw [ha] at hb
    cases hb
    exact hne rfl
  have hnot : ¬ Together p.clusters i j := by
    rintro ⟨x, hx, hy⟩
    exact hab ((e2.1.disj i a x hAi hx).trans (e2.1.disj j x b hy hBj))
  obtain ⟨s, -, hs⟩ := hL.own.dict_some (e3 ▸ at_lt_n e2.1 hAi)
  obtain ⟨t, -, ht⟩ := hL.own.dict_some (e3 ▸ at_lt_n e2.1 hBj)
  have hst : s ≠ t := by
    rintro rfl
    exact hnot ((hsame i j).2 ⟨s, hs, ht⟩)
  have hsn : s < mc.n := by rw [hL.len]; exact at_lt hs
  have htn : t < mc.n := by rw [hL.len]; exact at_lt ht
  have hnb : t ∈ neighs mc.T mc.n s := by
    unfold neighs
    rw [Finset.mem_filter, Finset.mem_range]
    refine ⟨htn, ?_⟩
    rcases hij with hij | hij
    · exact .inl (hL.adj s hsn t htn ⟨i, at_getD.2 hs, j, at_getD.2 ht, hij⟩)
    · exact .inr (hL.adj t htn s hsn ⟨j, at_getD.2 ht, i, at_getD.2 hs, hij⟩)
  have hatt : At mc.part.clusters t t := by rw [hL.single]; exact (singletons_at _ _ _).2 ⟨htn, rfl⟩
  have hats : At mc.part.clusters s s := by rw [hL.single]; exact (singletons_at _ _ _).2 ⟨hsn, rfl⟩
  have hdict : ∀ v < mc.n, mc.part.dict v = some (v : Int) := by
    intro v hv
    exact (hL.part.2 v v).2 ⟨v, rfl, by rw [hL.single]; exact (singletons_at _ _ _).2 ⟨hv, rfl⟩⟩
  have hmv := moveNode_ok hL.part (hdict s hsn) (at_lt hatt) hst
  have hcm := consistent_move (v := s) hL.part (cf := (t : Int)) (by omega) (by have := at_lt hatt; omega)
  have hcn : (moveNode mc.part s t).2.numNodes = mc.n := (moveNode_numNodes ..).1.trans hL.num
  have htog : ∀ x < mc.n, ∀ y < mc.n, (Together (moveNode mc.part s t).2.clusters x y ↔
      x = y ∨ ((x = s ∨ x = t) ∧ (y = s ∨ y = t))) := by
    intro x hx y hy
    rw [together_dict hcm, hmv]
    simp only
    by_cases hxs : x = s
    · by_cases hys : y = s
      · simp [hxs, hys]
      · rw [if_pos hxs, if_neg hys, hdict y hy]
        constructor
        · rintro ⟨k, h1, h2⟩
          rw [← h1] at h2
          simp only [Option.some.injEq, Nat.cast_inj] at h2
          exact .inr ⟨.inl hxs, .inr h2⟩
        · rintro (h | ⟨-, h⟩)
          · exact absurd (h ▸ hxs) hys
          · exact ⟨t, rfl, by rw [h.resolve_left hys]⟩
    · by_cases hys : y = s
      · rw [if_neg hxs, if_pos hys, hdict x hx]
        constructor
        · rintro ⟨k, h1, h2⟩
          rw [← h2] at h1
          simp only [Option.some.injEq, Nat.cast_inj] at h1
          exact .inr ⟨.inr h1, .inl hys⟩
        · rintro (h | ⟨h, -⟩)
          · exact absurd (h ▸ hys) hxs
          · exact ⟨t, by rw [h.resolve_left hxs], rfl⟩
      · rw [if_neg hxs, if_neg hys, hdict x hx, hdict y hy]
        constructor
        · rintro ⟨k, h1, h2⟩
          rw [← h1] at h2
          simp only [Option.some.injEq, Nat.cast_inj] at h2
          exact .inl h2.symm
        · rintro (h | ⟨h, h'⟩)
          · exact ⟨x, rfl, by rw [h]⟩
          · exact ⟨x, rfl, by rw [h.resolve_left hxs, h'.resolve_left hys]⟩
  have hlose : stability mc.S (moveNode mc.part s t).2 + par.thr < stability mc.S mc.part := by
    rcases hm s hsn t hnb t hatt with h | h
    · exfalso
      have h2 := (htog s hsn t htn).2 (.inr ⟨.inl rfl, .inr rfl⟩)
      rw [h, hL.single, together_singletons] at h2
      exact hst h2.1
    · exact h
  obtain ⟨q, f1, f2, f3, f4, f5⟩ := updatePart_spec hL.own hL.ne hcm (hcn.trans hL.len) hL.pos
  rw [hL.cov _ hcn hcm, hL.cov _ hL.num hL.part, stability_induced S hL.own hcm (hcn.trans hL.len) f2 f3 f5,
    stability_agg_singletons S hL.own hL.part (hL.num.trans hL.len) (by rw [hL.single, hL.len]),
    ← inside_stability S f2 f3, ← inside_stability S hL.own rfl] at hlose
  rw [inside_congr S hsame]
  have hmem : ∀ u k, At self.clusters k u → ((u ∈ A ↔ k = s) ∧ (u ∈ B ↔ k = t)) := by
    intro u k hk
    have one : ∀ (C : Finset Nat) (c i' x : Nat), p.clusters[c]? = some C → i' ∈ C → At self.clusters x i' → (u ∈ C ↔ k = x) := by
      intro C c i' x hc hi' hx
      constructor
      · intro hu
        obtain ⟨y, h1, h2⟩ := (hsame u i').1 ⟨c, ⟨C, hc, hu⟩, ⟨C, hc, hi'⟩⟩
        exact (hL.own.1.disj u k y hk h1).trans (hL.own.1.disj i' y x h2 hx)
      · rintro rfl
        obtain ⟨y, h1, h2⟩ := (hsame u i').2 ⟨k, hk, hx⟩
        have := e2.1.disj i' y c h2 ⟨C, hc, hi'⟩
        subst this
        obtain ⟨D, hD, hu⟩ := h1
        rw [hc] at hD
        cases hD
        exact hu
    exact ⟨one A a i s ha hi hs, one B b j t hb hj ht⟩
  rw [inside_congr S (cl := cl) (cl' := q.clusters) ?_]
  · exact hlose
  · intro u v
    rw [hcl]
    by_cases hlt : u < self.numNodes ∧ v < self.numNodes
    · obtain ⟨x, -, hx⟩ := hL.own.dict_some hlt.1
      obtain ⟨y, -, hy⟩ := hL.own.dict_some hlt.2
      have hxn : x < mc.n := by rw [hL.len]; exact at_lt hx
      have hyn : y < mc.n := by rw [hL.len]; exact at_lt hy
      rw [f5 u v x y hx hy, htog x hxn y hyn, hsame, Finset.mem_union, Finset.mem_union, (hmem u x hx).1, (hmem u x hx).2,
        (hmem v y hy).1, (hmem v y hy).2]
      have : Together self.clusters u v ↔ x = y := by
        constructor
        · rintro ⟨z, h1, h2⟩
          exact (hL.own.1.disj u x z hx h1).trans (hL.own.1.disj v z y h2 hy)
        · rintro rfl
          exact ⟨x, hx, hy⟩
      rw [this]
    · constructor
      · rintro (h | ⟨hu, hv⟩)
        · exact absurd ⟨e3 ▸ together_lt e2.1 h, e3 ▸ together_lt e2.1 (together_symm h)⟩ hlt
        · exfalso
          apply hlt
          have lt : ∀ w, w ∈ A ∪ B → w < self.numNodes := by
            intro w hw
            rw [← e3]
            rcases Finset.mem_union.1 hw with hw | hw
            · exact at_lt_n e2.1 ⟨A, ha, hw⟩
            · exact at_lt_n e2.1 ⟨B, hb, hw⟩
          exact ⟨lt u hu, lt v hv⟩
      · intro h
        exact absurd ⟨f3 ▸ together_lt f2.1 h, f3 ▸ together_lt f2.1 (together_symm h)⟩ hlt

/-- The state before the first phase, for a new object. -/
theorem level_start {n : Nat} (hn : 0 < n) {T S : Nat → Nat → K} {q : Part} (h1 : Consistent q) (h2 : q.numNodes = n)
    (h3 : q.clusters = singletons n) : Level T S q ⟨n, T, S, q⟩ := by
  refine ⟨h1, by omega, by rw [h3]; exact singletons_nonempty _, h1, h2, by rw [h3]; simp [singletons], h3, ?_, ?_, ?_⟩
  · intro p hp hpc
    refine stability_congr _ _ hpc.1 fun i hi j hj => ?_
    dsimp only at hp ⊢
    rw [h3, aggS_singletons S n i j (by omega) (by omega)]
  · intro s hs t ht
    dsimp only at hs ht ⊢
    rw [h3]
    simp [singletons, hs, ht, List.getD_eq_getElem?_getD]
  · intro s hs t ht
    dsimp only at hs ht ⊢
    rw [h3]
    simp [singletons, hs, ht, List.getD_eq_getElem?_getD]

theorem leaders_singletons (n : Nat) : (leaders n (singletons n)).card = n := by
  classical
  unfold leaders
  rw [Finset.filter_true_of_mem, Finset.card_range]
  intro u _ v hv h
  have := ((together_singletons n v u).1 h).1
  omega

/-- The end of a search on a new object. -/
theorem findLouvain_last (sc : Sched) {par : Params K} (hthr : 0 ≤ par.thr) (h1 : par.thr < 1) {c : Clu K}
    (hfresh : FreshDefault c) (hT : ∀ i < c.n, ∀ j < c.n, 0 ≤ c.T i j) (hS : ¬ sIsZero c.n c.S) {k : Nat} {p : Part}
    (hres : findLouvain sc par c = .ok (k, p)) :
    k ≤ c.n ∧ (k ≤ par.nMeta → ∃ self1 mc1 m d nl mp, Level c.T c.S self1 mc1 ∧ self1.numNodes = c.n ∧ d ≤ par.thr ∧
      moveNodes sc m par.thr par.nSub mc1 (par.nSub + 1) = .ok (d, nl, mp) ∧ updatePart self1 mp = .ok p) := by
  unfold FreshDefault mkClu at hfresh
  obtain ⟨q, hq, e1, e2, e3⟩ := mk'_none c.n false
  rw [hq] at hfresh
  split at hfresh
  · rename_i hrows
    injection hfresh with hfresh
    have hpart : c.part = q := by rw [← hfresh]
    unfold findLouvain at hres
    split at hres
    · simp at hres
    · rename_i hn0
      unfold mkClu at hres
      rw [if_pos hrows, hpart, mk'_clusterList] at hres
      have hqe : removeEmpty { numNodes := c.n, clusters := q.clusters, dict := dictOf q.clusters } = q := by
        have := removeEmpty_of_nonempty e1 (by rw [e3]; exact singletons_nonempty _)
        rw [← this]
        unfold removeEmpty
        simp only [e2]
        congr 1 <;> simp
      rw [hqe] at hres
      simp only [if_neg hS] at hres
      obtain ⟨r1, r2⟩ := metaLoop_last sc par hthr c.T c.S (par.nMeta + 3) 0 1 q _
        (level_start (T := c.T) (S := c.S) (by omega) e1 e2 e3) (by rw [e2]; exact hT) h1 (by omega) k p hres
      rw [e2, e3, leaders_singletons] at r1
      refine ⟨by omega, fun hk => ?_⟩
      obtain ⟨a, b, x, y, z, w, i1, i2, i3⟩ := r2 hk
      exact ⟨a, b, x, y, z, w, i1, i2.trans e2, i3⟩
  · simp at hfresh

/-- **C132**, number of levels.  From single nodes, with nonnegative transitions and threshold, the
search takes no more levels than there are nodes. -/
theorem C132_levels (sc : Sched) (par : Params K) (hthr : 0 ≤ par.thr) (h1 : par.thr < 1) (c : Clu K)
    (hfresh : FreshDefault c) (hT : ∀ i < c.n, ∀ j < c.n, 0 ≤ c.T i j) (k : Nat) (p : Part)
    (hres : findLouvain sc par c = .ok (k, p)) : k ≤ c.n := by
  by_cases hS : sIsZero c.n c.S
  · unfold findLouvain at hres
    split at hres
    · simp at hres
    · rw [mk'_clusterList] at hres
      simp only [Except.ok.injEq, Prod.mk.injEq] at hres
      omega
  · exact (findLouvain_last sc hthr h1 hfresh hT hS hres).1

/-- **C132, partial.**  If no two partitions have the same stability up to the threshold and the
limit on the levels is not smaller than the number of nodes: joining two of the communities found
between which the walk can step lowers the stability, by more than the threshold, for all random
choices. -/
theorem C132_joins_partial (sc : Sched) (par : Params K) (hthr : 0 ≤ par.thr) (h1 : par.thr < 1) (hsub : 2 ≤ par.nSub)
    (c : Clu K) (hmeta : c.n ≤ par.nMeta) (hfresh : FreshDefault c) (hT : ∀ i < c.n, ∀ j < c.n, 0 ≤ c.T i j)
    (hN : NoTies c.n c.S par.thr) (k : Nat) (p : Part) (hres : findLouvain sc par c = .ok (k, p))
    (A B : Finset Nat) (hA : A ∈ p.clusters) (hB : B ∈ p.clusters) (hne : A ≠ B) (hadj : Adjacent c.T A B)
    (cl : List (Finset Nat)) (hcl : JoinOf A B p.clusters cl) :
    inside c.n c.S cl + par.thr < inside c.n c.S p.clusters := by
  by_cases hS : sIsZero c.n c.S
  · exfalso
    unfold findLouvain at hres
    split at hres
    · simp at hres
    · rw [mk'_clusterList] at hres
      simp only [Except.ok.injEq, Prod.mk.injEq] at hres
      have hp := hres.2
      subst hp
      have hx : ∀ X ∈ (removeEmpty ⟨c.n, [Finset.range c.n], dictOf [Finset.range c.n]⟩).clusters, X = Finset.range c.n := by
        intro X hX
        unfold removeEmpty at hX
        dsimp only at hX
        exact List.mem_singleton.1 (List.mem_of_mem_filter hX)
      exact hne ((hx A hA).trans (hx B hB).symm)
  · obtain ⟨hk, hlast⟩ := findLouvain_last sc hthr h1 hfresh hT hS hres
    obtain ⟨self, mc, m, d, nl, mp, hL, hn, hd, hmove, hup⟩ := hlast (hk.trans hmeta)
    have hR := rigid_of hN
    rw [← hn] at hR ⊢
    exact joins_lose sc hthr h1 hsub hL hR hd hmove hup hA hB hne hadj hcl

open Verif.SparseLouvain in
/-- **C132, partial**: the sparse search.  As for the dense one: without ties, joining two of the
communities found between which there is a stored positive transition lowers the stability, by more
than the threshold. -/
theorem C132_sparse_partial (sc : Sched) (par : Params K) (hthr : 0 ≤ par.thr) (h1 : par.thr < 1) (hsub : 2 ≤ par.nSub)
    (c : SClu K) (f : Fit c.A) (hmeta : c.A.PT.nrows ≤ par.nMeta) (hfresh : Fresh c) (hz : c.A.isAllZeros = false)
    (hN : NoTies c.A.PT.nrows c.A.toarray par.thr) :
    ∃ k p, sFindLouvain sc par c = .ok (k, p) ∧ k ≤ c.A.PT.nrows ∧
      ∀ A ∈ p.clusters, ∀ B ∈ p.clusters, A ≠ B → Adjacent c.A.PT.val A B → ∀ cl, JoinOf A B p.clusters cl →
        inside c.A.PT.nrows c.A.toarray cl + par.thr < inside c.A.PT.nrows c.A.toarray p.clusters := by
  obtain ⟨k, p, hres, -⟩ := C69_no_worse_partial sc par c f hfresh hz
  refine ⟨k, p, hres, ?_⟩
  obtain ⟨e1, e2, e3⟩ := fresh_part hfresh
  have hne : ∀ cl ∈ c.part.clusters, cl.Nonempty := by
    rw [e3]; exact Verif.Louvain.singletons_nonempty _
  have hlen : c.part.clusters.length = c.A.PT.nrows := by rw [e3]; simp [singletons]
  have hd : Dense c.A c.A.toarray c.A.PT.val :=
    ⟨fun _ _ _ _ => rfl, fun i hi j _ => val_nonneg f.tight i j hi, fun _ _ _ _ => Iff.rfl⟩
  have heq := (sMetaLoop_eq f.fit0 False (Or.inl f.nonempty) (hd.dense0 f) False.elim sc par
    (par.nMeta + 3) 0 1 false c.part c
    ⟨c.A.PT.nrows, c.A.PT.val, c.A.toarray, c.part⟩ e1 e2 hne False.elim
    (Or.inr ⟨rel_base f.fit0 (Or.inl f.nonempty) (hd.dense0 f), rfl, e1, e2, hlen.symm,
      False.elim⟩)).1
  unfold sFindLouvain at hres
  rw [hz, mkS_same hfresh] at hres
  simp only [Bool.false_eq_true, if_false] at hres
  rw [heq] at hres
  match hm : metaLoop sc par c.A.PT.val c.A.toarray (par.nMeta + 3) 0 1 false c.part
      ⟨c.A.PT.nrows, c.A.PT.val, c.A.toarray, c.part⟩ with
  | .error e => rw [hm] at hres; simp [lift] at hres
  | .ok (k', p') =>
    rw [hm] at hres
    simp only [lift, Except.ok.injEq, Prod.mk.injEq] at hres
    obtain ⟨rfl, rfl⟩ := hres
    obtain ⟨r1, r2⟩ := metaLoop_last sc par hthr c.A.PT.val c.A.toarray (par.nMeta + 3) 0 1 c.part _
      (level_start (T := c.A.PT.val) (S := c.A.toarray) f.pos e1 e2 e3) (by rw [e2]; exact hd.nonneg) h1 (by omega) _ _ hm
    rw [e2, e3, leaders_singletons] at r1
    refine ⟨by omega, ?_⟩
    obtain ⟨self, mc, m, d, nl, mp, hL, hn, hd, hmove, hup⟩ := r2 (by omega)
    have hn := hn.trans e2
    have hR := rigid_of hN
    rw [← hn] at hR ⊢
    intro A hA B hB hne hadj cl hcl
    exact joins_lose sc hthr h1 hsub hL hR hd hmove hup hA hB hne hadj hcl

section Session

open Verif.TempNet Verif.EndToEnd Verif.FlowStability Verif.Trans Verif.Flow Verif.Mirror Verif.Average

variable {L : Type} [LinearOrder L]

theorem walkOver_stoch {evs : List (Event L ℝ)} (h : GoodContacts evs) {scale : ℝ} (hs : 0 < scale) (reverse : Bool) :
    Stoch (allLabels evs).length (walkOver evs (allLabels evs) (timesOf (ofEvents evs).events) scale reverse) := by
  obtain ⟨Lp, hL, hM⟩ := mats_spec h fun _ => false
  obtain ⟨hst, hW⟩ := hM scale hs
  unfold walkOver
  dsimp only
  refine stoch_prod fun A hA => ?_
  have hA' : A ∈ (List.range ((timesOf (ofEvents evs).events).length - 1)).map
      (walkStep evs (allLabels evs) (timesOf (ofEvents evs).events) scale) := by
    split at hA
    · exact List.mem_reverse.1 hA
    · exact hA
  obtain ⟨k, hk, rfl⟩ := List.getElem_of_mem hA'
  have hk' : k < (interMats (allLabels evs).length (expm (allLabels evs).length) (timesOf (ofEvents evs).events) Lp (1 / scale) false).length := by
    rw [hW.length_eq]; exact hk
  have e := (List.forall₂_iff_get.1 hW).2 k hk' hk
  simp only [List.get_eq_getElem] at e
  exact stoch_congr (fun i hi j hj => (e i hi j hj).symm) (hst _ (List.getElem_mem hk'))

/-- **C132, partial**: the whole analysis.  If no two partitions of the labels have the same flow
stability up to the threshold, the communities that an analysis holds, forward and backward in time,
cannot be improved by joining two of them between which the walk can go. -/
theorem C132_analysis_partial (sf : Nat → Bool) (sc0 : Sched) (par0 : Params ℝ) {w : FWorld (NetObj L) FlowObj} {scales : List Rat}
    (h : Prepared w (scales.map some) none none) (hc : 0 ≤ w.current) {evs : List (Event L ℝ)} (hG : GoodContacts evs)
    (hne : scales ≠ []) (hpos : ∀ q ∈ scales, 0 < q) (kw : Kw L) (hkw : ∀ e, kw ≠ .network e) {nodes : List L} {times : List ℝ}
    (hn : NodesOf evs nodes) (ht : TimesOf evs times) (rev : Bool) {q : Rat} (hq : q ∈ scales)
    (hthr : 0 ≤ (used sc0 par0 kw).2.thr) (h1 : (used sc0 par0 kw).2.thr < 1) (hsub : 2 ≤ (used sc0 par0 kw).2.nSub)
    (hmeta : nodes.length ≤ (used sc0 par0 kw).2.nMeta)
    (hN : NoTies nodes.length (flowCov evs nodes times q rev) (used sc0 par0 kw).2.thr) :
    ∃ p, Holds (runF (ext sf sc0 par0) w (steps evs kw)) rev q p ∧
      ∀ A ∈ p.clusters, ∀ B ∈ p.clusters, A ≠ B → Adjacent (walkOver evs nodes times q rev) A B →
        ∀ cl, JoinOf A B p.clusters cl →
          inside nodes.length (flowCov evs nodes times q rev) cl + (used sc0 par0 kw).2.thr <
            inside nodes.length (flowCov evs nodes times q rev) p.clusters := by
  obtain ⟨p, hp, c, k, hm, hl⟩ := C81_search sf sc0 par0 h hc hG hne hpos kw hkw hn ht rev hq
  refine ⟨p, hp, fun A hA B hB hAB hadj cl hcl => ?_⟩
  have hst := walkOver_stoch hG (scale := (q : ℝ)) (by exact_mod_cast hpos q hq) rev
  rw [← nodes_unique hn, ← times_unique ht] at hst
  have hcc : c.n = nodes.length ∧ c.T = walkOver evs nodes times q rev ∧ c.S = flowCov evs nodes times q rev := by
    unfold mkClu at hm
    split at hm
    · split at hm
      · cases hm
      · cases hm
        exact ⟨rfl, rfl, rfl⟩
    · cases hm
  have hfresh : FreshDefault c := by
    unfold FreshDefault
    rw [hcc.1, hcc.2.1, hcc.2.2]
    exact hm
  have := C132_joins_partial (used sc0 par0 kw).1 (used sc0 par0 kw).2 hthr h1 hsub c (by rw [hcc.1]; exact hmeta) hfresh
    (by rw [hcc.1, hcc.2.1]; exact fun i hi => (hst i hi).1) (by rw [hcc.1, hcc.2.2]; exact hN) k p hl A B hA hB hAB
    (by rw [hcc.2.1]; exact hadj) cl hcl
  rwa [hcc.1, hcc.2.2] at this

end Session

/-! ## Wrong results -/

/-- The clusters returned. -/
def found (r : Except Err (Nat × Part)) : Option (List (Finset Nat)) :=
  match r with
  | .ok (_, p) => some p.clusters
  | .error _ => none

theorem found_iff {r : Except Err (Nat × Part)} {cl : List (Finset Nat)} (h : found r = some cl) :
    ∃ k p, r = .ok (k, p) ∧ p.clusters = cl := by
  match r with
  | .ok (k, p) => exact ⟨k, p, rfl, by simpa [found] using h⟩
  | .error e => simp [found] at h

/-- `inside` as a computation. -/
def insideC (n : Nat) (S : Nat → Nat → ℚ) (cl : List (Finset Nat)) : ℚ :=
  ∑ i ∈ Finset.range n, ∑ j ∈ Finset.range n, if ∃ c ∈ cl, i ∈ c ∧ j ∈ c then S i j else 0

theorem inside_eq (n : Nat) (S : Nat → Nat → ℚ) (cl : List (Finset Nat)) : inside n S cl = insideC n S cl := by
  unfold inside insideC
  refine Finset.sum_congr rfl fun i _ => Finset.sum_congr rfl fun j _ => ?_
  split_ifs <;> rfl

/-- Entry of a matrix that is given by rows. -/
def entry (l : List (List ℚ)) (i j : Nat) : ℚ := (l.getD i []).getD j 0

/-- The object for a walk that is stationary with equal probabilities. -/
def station (n : Nat) (T : Nat → Nat → ℚ) : Clu ℚ :=
  { n := n, T := T, S := fun i j => T i j / n - 1 / n ^ 2, part := removeEmpty ⟨n, singletons n, dictOf (singletons n)⟩ }

theorem station_fresh {n : Nat} {T : Nat → Nat → ℚ} (h : rowsOk n T) : FreshDefault (station n T) := by
  unfold FreshDefault mkClu
  rw [if_pos (show rowsOk (station n T).n (station n T).T from h)]
  rfl

def tieT : Nat → Nat → ℚ := fun i j => 1 / 5 + entry
  [[3, -1, 0, -1, -1], [-1, 4, 1, -2, -2], [0, 1, 0, 1, -2], [-1, -2, 1, 1, 1], [-1, -2, -2, 1, 4]] i j / 20

/-- **C132, violated.**  With ties the claim fails: for a symmetric walk on five nodes that can step
between all nodes, the search ends with three communities although joining two of them would raise
the stability.  The last sweep moves nodes without gain, which makes the joining favourable, and the
search ends because of the missing gain. -/
theorem C132_ties_violated :
    ∃ T : Nat → Nat → ℚ, (∀ i < 5, ∀ j < 5, 0 < T i j ∧ T i j = T j i) ∧ (∀ i < 5, rowSum 5 T i = 1) ∧
      FreshDefault (station 5 T) ∧
      ∃ k p, findLouvain exSched exPar (station 5 T) = .ok (k, p) ∧ k ≤ exPar.nMeta ∧ p.clusters = [{0, 1}, {2}, {3, 4}] ∧
        JoinOf {0, 1} {2} p.clusters [{0, 1, 2}, {3, 4}] ∧
        inside 5 (station 5 T).S p.clusters + 1 / 50 = inside 5 (station 5 T).S [{0, 1, 2}, {3, 4}] := by
  have hr : rowsOk 5 tieT := by decide +kernel
  refine ⟨tieT, by decide +kernel, by decide +kernel, station_fresh hr, ?_⟩
  obtain ⟨k, p, h1, h2⟩ := found_iff (show found (findLouvain exSched exPar (station 5 tieT)) = some [{0, 1}, {2}, {3, 4}] by
    decide +kernel)
  refine ⟨k, p, h1, ?_, h2, ?_, ?_⟩
  · have := C132_levels exSched exPar (by decide +kernel) (by decide +kernel) (station 5 tieT) (station_fresh hr) (by decide +kernel) k p h1
    exact this.trans (by decide)
  · rw [h2]
    intro u v
    simp only [together_iff]
    simp
    omega
  · rw [h2, inside_eq, inside_eq]
    decide +kernel

def outT : Nat → Nat → ℚ := fun i j => 1 / 4 + entry
  [[7, -3, -5, 1], [-3, 4, -8, 7], [-5, -8, 22, -9], [1, 7, -9, 1]] i j / 100

/-- **C133, violated**: a node that does not belong.  For a symmetric walk on four nodes that can
step between all nodes, the search ends with two communities although taking a node out of one of
them would raise the stability.  A node can only move to the community of another node, never to a
new one. -/
theorem C133_take_out_violated :
    ∃ T : Nat → Nat → ℚ, (∀ i < 4, ∀ j < 4, 0 < T i j ∧ T i j = T j i) ∧ (∀ i < 4, rowSum 4 T i = 1) ∧
      FreshDefault (station 4 T) ∧
      ∃ k p, findLouvain exSched exPar (station 4 T) = .ok (k, p) ∧ k ≤ exPar.nMeta ∧ p.clusters = [{2}, {0, 1, 3}] ∧
        TakenOut 0 p.clusters [{2}, {0}, {1, 3}] ∧
        inside 4 (station 4 T).S p.clusters + 1 / 100 = inside 4 (station 4 T).S [{2}, {0}, {1, 3}] := by
  have hr : rowsOk 4 outT := by decide +kernel
  refine ⟨outT, by decide +kernel, by decide +kernel, station_fresh hr, ?_⟩
  obtain ⟨k, p, h1, h2⟩ := found_iff (show found (findLouvain exSched exPar (station 4 outT)) = some [{2}, {0, 1, 3}] by
    decide +kernel)
  refine ⟨k, p, h1, ?_, h2, ?_, ?_⟩
  · have := C132_levels exSched exPar (by decide +kernel) (by decide +kernel) (station 4 outT) (station_fresh hr) (by decide +kernel) k p h1
    exact this.trans (by decide)
  · rw [h2]
    intro u v
    simp only [together_iff]
    simp
    omega
  · rw [h2, inside_eq, inside_eq]
    decide +kernel

def apartT : Nat → Nat → ℚ := fun i j => entry
  [[3, 0, 1, 1, 0], [0, 2, 1, 2, 0], [1, 1, 3, 0, 0], [1, 2, 0, 0, 2], [0, 0, 0, 2, 3]] i j / 5

/-- **C133, violated**: a community without links.  For a symmetric walk on five nodes, the search
ends with a community of two nodes between which the walk cannot step. -/
theorem C133_apart_violated :
    ∃ T : Nat → Nat → ℚ, (∀ i < 5, ∀ j < 5, 0 ≤ T i j ∧ T i j = T j i) ∧ (∀ i < 5, rowSum 5 T i = 1) ∧
      FreshDefault (station 5 T) ∧
      ∃ k p, findLouvain exSched exPar (station 5 T) = .ok (k, p) ∧ k ≤ exPar.nMeta ∧ {0, 1} ∈ p.clusters ∧
        ¬ Adjacent T {0} {1} := by
  have hr : rowsOk 5 apartT := by decide +kernel
  refine ⟨apartT, by decide +kernel, by decide +kernel, station_fresh hr, ?_⟩
  obtain ⟨k, p, h1, h2⟩ := found_iff (show found (findLouvain exSched exPar (station 5 apartT)) = some [{2}, {0, 1}, {3, 4}] by
    decide +kernel)
  refine ⟨k, p, h1, ?_, ?_, ?_⟩
  · have := C132_levels exSched exPar (by decide +kernel) (by decide +kernel) (station 5 apartT) (station_fresh hr) (by decide +kernel) k p h1
    exact this.trans (by decide)
  · rw [h2]
    simp
  · rintro ⟨i, hi, j, hj, h⟩
    rw [Finset.mem_singleton] at hi hj
    subst hi
    subst hj
    revert h
    decide +kernel

/-- **C133, partial.**  If the walk can step between any two nodes that a chain of steps links, any
two nodes of a community are linked by a step. -/
theorem C133_linked_partial (sc : Sched) (par : Params K) (c : Clu K) (hfresh : FreshDefault c) (hS : ¬ sIsZero c.n c.S)
    (hT : ∀ i < c.n, ∀ j < c.n, 0 ≤ c.T i j)
    (htrans : ∀ x < c.n, ∀ y < c.n, ∀ z < c.n, Adjacent c.T {x} {y} → Adjacent c.T {y} {z} → x = z ∨ Adjacent c.T {x} {z})
    (k : Nat) (p : Part) (hres : findLouvain sc par c = .ok (k, p)) (A : Finset Nat) (hA : A ∈ p.clusters)
    (x y : Nat) (hx : x ∈ A) (hy : y ∈ A) (hne : x ≠ y) : Adjacent c.T {x} {y} := by
  have hsym : ∀ x y, Adjacent c.T {x} {y} → Adjacent c.T {y} {x} := by
    rintro x y ⟨i, hi, j, hj, h⟩
    exact ⟨j, hj, i, hi, h.symm⟩
  have hval := C29_no_worse_from_default_partial sc par c hfresh hS k p hres
  have hlt : ∀ v ∈ A, v < c.n := by
    intro v hv
    obtain ⟨a, ha⟩ := List.getElem?_of_mem hA
    rw [← hval.2.1]
    exact at_lt_n hval.1.1 ⟨A, ha, hv⟩
  have hu := Groups.C129_louvain (grp := fun i => {j | j < c.n ∧ i < c.n ∧ (i = j ∨ Adjacent c.T {i} {j})}) sc par c hfresh (by
    intro i hi j hj hij
    have hpos : 0 < c.T i j := lt_of_le_of_ne (hT i hi j hj) (Ne.symm hij)
    have hadj : Adjacent c.T {i} {j} := ⟨i, by simp, j, by simp, .inl hpos⟩
    have step : ∀ i j, i < c.n → j < c.n → Adjacent c.T {i} {j} → ∀ z, (z < c.n ∧ i < c.n ∧ (i = z ∨ Adjacent c.T {i} {z})) →
        (z < c.n ∧ j < c.n ∧ (j = z ∨ Adjacent c.T {j} {z})) := by
      rintro i j hi hj hadj z ⟨hz, -, rfl | h⟩
      · exact ⟨hz, hj, .inr (hsym _ _ hadj)⟩
      · exact ⟨hz, hj, htrans j hj i hi z hz (hsym _ _ hadj) h⟩
    ext z
    exact ⟨step i j hi hj hadj z, step j i hj hi (hsym _ _ hadj) z⟩) hS k p hres x y ((together_iff _ _ _).2 ⟨A, hA, hx, hy⟩)
  have hm : y ∈ {j | j < c.n ∧ x < c.n ∧ (x = j ∨ Adjacent c.T {x} {j})} := by
    beta_reduce at hu
    rw [hu]
    exact ⟨hlt y hy, hlt y hy, .inl rfl⟩
  exact hm.2.2.resolve_left hne

/-! ## The hypotheses can be met -/

theorem inside_two {S : Nat → Nat → K} {cl : List (Finset Nat)} (h : IsPartition 2 cl) [Decidable (Together cl 0 1)] :
    inside 2 S cl = S 0 0 + S 1 1 + if Together cl 0 1 then S 0 1 + S 1 0 else 0 := by
  classical
  have hs : ∀ i j, (∃ c ∈ cl, i ∈ c ∧ j ∈ c) ↔ Together cl i j := fun i j => (together_iff ..).symm
  have hsym : ∀ i j, Together cl i j ↔ Together cl j i := fun i j => ⟨together_symm, together_symm⟩
  have hr : ∀ i < 2, Together cl i i := fun i hi => together_refl h hi
  unfold inside
  simp only [Finset.sum_range_succ, Finset.sum_range_zero, zero_add, hs, hsym 1 0,
    if_pos (hr 0 (by omega)), if_pos (hr 1 (by omega))]
  split_ifs <;> ring

theorem noTies_two {S : Nat → Nat → K} {thr : K} (h : thr < |S 0 1 + S 1 0|) : NoTies 2 S thr := by
  classical
  intro cl cl' hc hc' hd
  rw [inside_two hc, inside_two hc'] at hd
  have key : Together cl 0 1 ↔ Together cl' 0 1 := by
    by_contra hne
    by_cases h3 : Together cl 0 1
    · have h4 : ¬ Together cl' 0 1 := fun h4 => hne ⟨fun _ => h4, fun _ => h3⟩
      rw [if_pos h3, if_neg h4, add_sub_add_left_eq_sub, sub_zero] at hd
      exact absurd h (not_lt.2 hd)
    · have h4 : Together cl' 0 1 := by
        by_contra h4
        exact hne ⟨fun h => absurd h h3, fun h => absurd h h4⟩
      rw [if_neg h3, if_pos h4, add_sub_add_left_eq_sub, zero_sub, abs_neg] at hd
      exact absurd h (not_lt.2 hd)
  have one : ∀ cl cl' : List (Finset Nat), IsPartition 2 cl → IsPartition 2 cl' → (Together cl 0 1 → Together cl' 0 1) →
      ∀ u v, Together cl u v → Together cl' u v := by
    intro cl cl' hc hc' hk u v huv
    have hu := together_lt hc huv
    have hv := together_lt hc (together_symm huv)
    have hu' : u = 0 ∨ u = 1 := by omega
    have hv' : v = 0 ∨ v = 1 := by omega
    rcases hu' with rfl | rfl <;> rcases hv' with rfl | rfl
    · exact together_refl hc' (by omega)
    · exact hk huv
    · exact together_symm (hk (together_symm huv))
    · exact together_refl hc' (by omega)
  exact fun u v => ⟨one cl cl' hc hc' key.1 u v, one cl' cl hc' hc key.2 u v⟩

/-- Three nodes without ties: `0` and `1` attract each other. -/
def exS3 : Nat → Nat → ℚ := entry [[1, 1, -2], [1, 3, -4], [-2, -4, 6]]

theorem inside_three {S : Nat → Nat → K} {cl : List (Finset Nat)} (h : IsPartition 3 cl) [Decidable (Together cl 0 1)]
    [Decidable (Together cl 0 2)] [Decidable (Together cl 1 2)] :
    inside 3 S cl = S 0 0 + S 1 1 + S 2 2 + (if Together cl 0 1 then S 0 1 + S 1 0 else 0) +
      (if Together cl 0 2 then S 0 2 + S 2 0 else 0) + if Together cl 1 2 then S 1 2 + S 2 1 else 0 := by
  classical
  have hs : ∀ i j, (∃ c ∈ cl, i ∈ c ∧ j ∈ c) ↔ Together cl i j := fun i j => (together_iff ..).symm
  have hsym : ∀ i j, Together cl i j ↔ Together cl j i := fun i j => ⟨together_symm, together_symm⟩
  have hr : ∀ i < 3, Together cl i i := fun i hi => together_refl h hi
  unfold inside
  simp only [Finset.sum_range_succ, Finset.sum_range_zero, zero_add, hs, hsym 1 0, hsym 2 0, hsym 2 1,
    if_pos (hr 0 (by omega)), if_pos (hr 1 (by omega)), if_pos (hr 2 (by omega))]
  split_ifs <;> ring

theorem exS3_noTies : NoTies 3 exS3 exPar.thr := by
  classical
  intro cl cl' hc hc' hd
  rw [inside_three hc, inside_three hc'] at hd
  have v : exS3 0 1 + exS3 1 0 = 2 ∧ exS3 0 2 + exS3 2 0 = -4 ∧ exS3 1 2 + exS3 2 1 = -8 := by decide +kernel
  rw [v.1, v.2.1, v.2.2, show exPar.thr = 1 / 10 ^ 15 from rfl, abs_le] at hd
  have t : ∀ {cl}, IsPartition 3 cl → (Together cl 0 1 → Together cl 0 2 → Together cl 1 2) ∧
      (Together cl 0 1 → Together cl 1 2 → Together cl 0 2) ∧ (Together cl 0 2 → Together cl 1 2 → Together cl 0 1) :=
    fun h => ⟨fun a b => together_trans h (together_symm a) b, fun a b => together_trans h a b,
      fun a b => together_trans h a (together_symm b)⟩
  have five : ∀ {cl}, IsPartition 3 cl → ∃ x ∈ [(False, False, False, (0 : ℚ)), (True, False, False, 2), (False, True, False, -4),
      (False, False, True, -8), (True, True, True, -10)], (Together cl 0 1 ↔ x.1) ∧ (Together cl 0 2 ↔ x.2.1) ∧ (Together cl 1 2 ↔ x.2.2.1) ∧
      ((if Together cl 0 1 then (2 : ℚ) else 0) + (if Together cl 0 2 then -4 else 0) + if Together cl 1 2 then -8 else 0) = x.2.2.2 := by
    intro cl h
    have t1 := t h
    by_cases a : Together cl 0 1 <;> by_cases b : Together cl 0 2 <;> by_cases d : Together cl 1 2 <;>
      simp [a, b, d] at t1 ⊢ <;> norm_num
  obtain ⟨x, hx, x1, x2, x3, x4⟩ := five hc
  obtain ⟨y, hy, y1, y2, y3, y4⟩ := five hc'
  have hd' : -(1 / 10 ^ 15 : ℚ) ≤ x.2.2.2 - y.2.2.2 ∧ x.2.2.2 - y.2.2.2 ≤ 1 / 10 ^ 15 := by
    rw [← x4, ← y4]
    exact ⟨by linarith [hd.1], by linarith [hd.2]⟩
  have key : (Together cl 0 1 ↔ Together cl' 0 1) ∧ (Together cl 0 2 ↔ Together cl' 0 2) ∧ (Together cl 1 2 ↔ Together cl' 1 2) := by
    rw [x1, x2, x3, y1, y2, y3]
    clear x1 x2 x3 x4 y1 y2 y3 y4 hd five t v
    simp only [List.mem_cons, List.not_mem_nil, or_false] at hx hy
    rcases hx with rfl | rfl | rfl | rfl | rfl <;> rcases hy with rfl | rfl | rfl | rfl | rfl <;>
      first | exact ⟨Iff.rfl, Iff.rfl, Iff.rfl⟩ | (exfalso; norm_num at hd')
  intro u v
  by_cases huv : u < 3 ∧ v < 3
  · obtain ⟨hu, hv⟩ := huv
    have hsym : ∀ (cl : List (Finset Nat)) i j, Together cl i j ↔ Together cl j i := fun cl i j => ⟨together_symm, together_symm⟩
    have hu' : u = 0 ∨ u = 1 ∨ u = 2 := by omega
    have hv' : v = 0 ∨ v = 1 ∨ v = 2 := by omega
    have r := fun i hi => together_refl hc (u := i) hi
    have r' := fun i hi => together_refl hc' (u := i) hi
    rcases hu' with rfl | rfl | rfl <;> rcases hv' with rfl | rfl | rfl <;>
      simp only [r _ hu, r' _ hu, key.1, key.2.1, key.2.2, hsym cl 1 0, hsym cl 2 0, hsym cl 2 1, hsym cl' 1 0, hsym cl' 2 0, hsym cl' 2 1]
  · constructor
    · intro h
      exact absurd ⟨together_lt hc h, together_lt hc (together_symm h)⟩ huv
    · intro h
      exact absurd ⟨together_lt hc' h, together_lt hc' (together_symm h)⟩ huv

/-- The hypotheses of `C132_joins_partial` are met, with two communities found. -/
example : FreshDefault (⟨3, exT, exS3, (exClu (singletons 3)).part⟩ : Clu ℚ) ∧ NoTies 3 exS3 exPar.thr ∧ (∀ i < 3, ∀ j < 3, 0 ≤ exT i j) ∧
    0 ≤ exPar.thr ∧ exPar.thr < 1 ∧ 2 ≤ exPar.nSub ∧ 3 ≤ exPar.nMeta ∧
    found (findLouvain exSched exPar ⟨3, exT, exS3, (exClu (singletons 3)).part⟩) = some [{0, 1}, {2}] ∧ Adjacent exT {0, 1} {2} := by
  refine ⟨?_, exS3_noTies, by decide +kernel, by decide +kernel, by decide +kernel, by decide, by decide, by decide +kernel,
    ⟨0, by simp, 2, by simp, .inl (by decide +kernel)⟩⟩
  unfold FreshDefault mkClu
  rw [if_pos (by decide +kernel)]
  rfl

/-- Two nodes that mostly stay. -/
def exA2 : Verif.Autocov.Autocov ℚ :=
  Verif.Autocov.fromT (Verif.Csr.ofRows 2 [[(0, 3 / 4), (1, 1 / 4)], [(0, 1 / 4), (1, 3 / 4)]]) (some fun _ => 1 / 2) none

open Verif.SparseLouvain Verif.Csr in
/-- The hypotheses of `C132_sparse_partial` are met. -/
example : Fit exA2 ∧ exA2.isAllZeros = false ∧ exA2.PT.nrows = 2 ∧ NoTies exA2.PT.nrows exA2.toarray exPar.thr ∧ exA2.PT.nrows ≤ exPar.nMeta := by
  refine ⟨⟨Verif.Autocov.good_fromT _ (wf_ofRows _ _ (by decide +kernel)) (by decide)
      (by unfold Csr.NoRepeats; decide +kernel) _ _,
      fun h => absurd h (by decide), ⟨by decide +kernel, by decide +kernel⟩,
      ⟨by decide +kernel, by decide +kernel⟩, by decide +kernel, by decide +kernel⟩,
    by decide +kernel, rfl, ?_, by decide⟩
  exact noTies_two (by decide +kernel)

/-- The hypotheses of `C133_linked_partial` are met: a walk that can step between any two nodes. -/
example : FreshDefault (station 4 outT) ∧ ¬ sIsZero 4 (station 4 outT).S ∧
    (∀ x < 4, ∀ y < 4, ∀ z < 4, Adjacent outT {x} {y} → Adjacent outT {y} {z} → x = z ∨ Adjacent outT {x} {z}) ∧
    found (findLouvain exSched exPar (station 4 outT)) = some [{2}, {0, 1, 3}] := by
  refine ⟨station_fresh (by decide +kernel), by decide +kernel, ?_, by decide +kernel⟩
  intro x hx y hy z hz _ _
  have : ∀ x < 4, ∀ z < 4, 0 < outT x z := by decide +kernel
  exact .inr ⟨x, by simp, z, by simp, .inl (this x hx z hz)⟩

end Verif.Optimum

namespace Verif.Optimum

open Verif.TempNet Verif.EndToEnd Verif.Trans Verif.Flow Verif.Average Verif.FlowStability Verif.Mirror Verif.Louvain Verif.Partition

variable {L : Type} [LinearOrder L] {x y : L} {a b : ℝ}

/-- Covariance of the walk of a single contact. -/
theorem pair_flow (hxy : x < y) (hab : a < b) (scale : ℝ) (rev : Bool) :
    EqOn 2 (flowCov (whole x y a b) [x, y] [a, b] scale rev)
      fun i j => if i = j then Real.exp (-(4 * ((b - a) / scale))) / 4 else -(Real.exp (-(4 * ((b - a) / scale))) / 4) := by
  have hd : b - a ≠ 0 := (sub_pos.2 hab).ne'
  have hM : EqOn 2 (walkStep (whole x y a b) [x, y] [a, b] scale 0)
      fun i j => if i = j then (1 + Real.exp (-(2 * ((b - a) / scale)))) / 2 else (1 - Real.exp (-(2 * ((b - a) / scale)))) / 2 := by
    refine EqOn.trans ?_ (expm_pair _)
    unfold walkStep
    show EqOn 2 (expm 2 fun i j => -((b - a) * (1 / scale)) * walkLaplacian 2 (InContact (whole x y a b) [x, y] a) i j) _
    rw [expm_congr (B := fun i j => -((b - a) / scale) * pairLap i j)]
    · exact EqOn.refl _ _
    · intro i hi j hj
      show _ * walkLaplacian 2 _ i j = _
      rw [whole_contact hxy le_rfl hab i hi j hj, mul_one_div]
  have hP : EqOn 2 (prod 2 [walkStep (whole x y a b) [x, y] [a, b] scale 0]) _ := (mul_eye _).trans hM
  intro i hi j hj
  have e1 : flowCov (whole x y a b) [x, y] [a, b] scale rev i j =
      covAt 2 (everywhere 2) (prod 2 [walkStep (whole x y a b) [x, y] [a, b] scale 0]) i j := by
    have : ∀ z : ℝ, ((b - a) * z + 0) / ((b - a) + 0) = z := fun z => by rw [add_zero, add_zero, mul_div_cancel_left₀ _ hd]
    cases rev <;> exact this _
  rw [e1, covAt_congr _ hP i hi j hj]
  have ha : ∀ k < 2, after 2 (everywhere 2) (fun i j => if i = j then (1 + Real.exp (-(2 * ((b - a) / scale)))) / 2
      else (1 - Real.exp (-(2 * ((b - a) / scale)))) / 2) k = 1 / 2 := by
    intro k hk
    have : k = 0 ∨ k = 1 := by omega
    unfold after everywhere
    rcases this with rfl | rfl <;> simp [Finset.sum_range_succ] <;> ring
  unfold covAt
  rw [Finset.sum_range_succ, Finset.sum_range_succ, Finset.sum_range_zero, ha 0 (by omega), ha 1 (by omega)]
  have e : Real.exp (-(4 * ((b - a) / scale))) = Real.exp (-(2 * ((b - a) / scale))) ^ 2 := by
    rw [← Real.exp_nat_mul]; congr 1; push_cast; ring
  rw [e]
  have hi' : i = 0 ∨ i = 1 := by omega
  have hj' : j = 0 ∨ j = 1 := by omega
  unfold everywhere
  rcases hi' with rfl | rfl <;> rcases hj' with rfl | rfl <;> norm_num <;> ring

/-- The hypotheses of `C132_analysis_partial` are met by each contact of two labels, with threshold 0. -/
example (hxy : x < y) (hab : a < b) (q : Rat) (rev : Bool) : GoodContacts (whole x y a b) ∧ NodesOf (whole x y a b) [x, y] ∧
    TimesOf (whole x y a b) [a, b] ∧ NoTies 2 (flowCov (whole x y a b) [x, y] [a, b] q rev) 0 := by
  refine ⟨whole_good hxy hab, whole_nodes hxy, whole_times hab, noTies_two ?_⟩
  have h := pair_flow hxy hab q rev
  rw [h 0 (by omega) 1 (by omega), h 1 (by omega) 0 (by omega)]
  simp only [zero_ne_one, one_ne_zero, if_false]
  have := Real.exp_pos (-(4 * ((b - a) / q)))
  rw [abs_of_neg (by linarith)]
  linarith

end Verif.Optimum
