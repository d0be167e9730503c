import Verif.Optimum.Spec
import Verif.Groups.Louvain

/-! # Where the Louvain search stops -/

set_option linter.dupNamespace false
set_option linter.unusedSectionVars false

namespace Verif.Optimum

open Verif.Partition Verif.Louvain

variable {K : Type} [Field K] [LinearOrder K] [IsStrictOrderedRing K]

theorem together_iff (cl : List (Finset Nat)) (i j : Nat) : Together cl i j ↔ ∃ c ∈ cl, i ∈ c ∧ j ∈ c := by
  unfold Together At
  constructor
  · rintro ⟨k, ⟨c, hc, hi⟩, ⟨c', hc', hj⟩⟩
    rw [hc] at hc'
    cases hc'
    exact ⟨c, List.mem_of_getElem? hc, hi, hj⟩
  · rintro ⟨c, hc, hi, hj⟩
    obtain ⟨k, hk⟩ := List.getElem?_of_mem hc
    exact ⟨k, ⟨c, hk, hi⟩, ⟨c, hk, hj⟩⟩

theorem inside_congr {n : Nat} (S : Nat → Nat → K) {cl cl' : List (Finset Nat)}
    (h : ∀ u v, Together cl u v ↔ Together cl' u v) : inside n S cl = inside n S cl' := by
  unfold inside
  refine Finset.sum_congr rfl fun i _ => Finset.sum_congr rfl fun j _ => ?_
  have e : (∃ c ∈ cl, i ∈ c ∧ j ∈ c) ↔ ∃ c ∈ cl', i ∈ c ∧ j ∈ c := by
    rw [← together_iff, ← together_iff, h]
  simp only [e]

theorem inside_stability (S : Nat → Nat → K) {n : Nat} {p : Part} (h : Consistent p) (hn : p.numNodes = n) :
    inside n S p.clusters = stability S p := by
  rw [stability_pair S p h.1]
  unfold inside pairStability
  rw [hn]
  refine Finset.sum_congr rfl fun i _ => Finset.sum_congr rfl fun j _ => ?_
  simp only [together_iff]

theorem together_dict {p : Part} (h : Consistent p) (u v : Nat) :
    Together p.clusters u v ↔ ∃ i, p.dict u = some i ∧ p.dict v = some i := by
  constructor
  · rintro ⟨k, hu, hv⟩
    exact ⟨k, (h.2 u k).2 ⟨k, rfl, hu⟩, (h.2 v k).2 ⟨k, rfl, hv⟩⟩
  · rintro ⟨i, hu, hv⟩
    obtain ⟨k, rfl, hk⟩ := (h.2 u i).1 hu
    obtain ⟨k', hk', hv'⟩ := (h.2 v _).1 hv
    have : k = k' := by omega
    subst this
    exact ⟨k, hk, hv'⟩

/-- No ties, for stored partitions. -/
def Rigid (n : Nat) (S : Nat → Nat → K) (thr : K) : Prop :=
  ∀ p q : Part, Consistent p → Consistent q → p.numNodes = n → q.numNodes = n →
    |stability S p - stability S q| ≤ thr → ∀ u v, Together p.clusters u v ↔ Together q.clusters u v

theorem rigid_of {n : Nat} {S : Nat → Nat → K} {thr : K} (h : NoTies n S thr) : Rigid n S thr := by
  intro p q hp hq hpn hqn hd
  rw [← inside_stability S hp hpn, ← inside_stability S hq hqn] at hd
  exact h _ _ (hpn ▸ hp.1) (hqn ▸ hq.1) hd

/-- A move to the cluster of another node changes the groups, or it is no move. -/
theorem move_changes {p : Part} (h : Consistent p) {v u cf : Nat} (hv : v < p.numNodes) (hcf : At p.clusters cf u)
    (hs : ∀ a b, Together (moveNode p v cf).2.clusters a b ↔ Together p.clusters a b) : (moveNode p v cf).2 = p := by
  obtain ⟨ci, hd, hat⟩ := h.dict_some hv
  by_cases he : ci = cf
  · subst he
    unfold moveNode
    rw [hd]
    simp
  · exfalso
    have hc := consistent_move (v := v) h (cf := (cf : Int)) (by omega) (by have := at_lt hcf; omega)
    have hu : p.dict u = some (cf : Int) := (h.2 u cf).2 ⟨cf, rfl, hcf⟩
    have huv : u ≠ v := by
      rintro rfl
      rw [hd] at hu
      simp only [Option.some.injEq, Nat.cast_inj] at hu
      exact he hu
    have hmv := moveNode_ok h hd (at_lt hcf) he
    have : Together (moveNode p v cf).2.clusters v u := by
      rw [together_dict hc, hmv]
      exact ⟨cf, by simp, by simp [huv, hu]⟩
    rw [hs, together_dict h] at this
    obtain ⟨i, h1, h2⟩ := this
    rw [hd] at h1
    rw [hu, ← h1] at h2
    simp only [Option.some.injEq, Nat.cast_inj] at h2
    omega

theorem visit_still (S T : Nat → Nat → K) {p : Part} (h : Consistent p) {thr : K}
    (hR : Rigid p.numNodes S thr) (it : Finset Int → List Int) (hit : ∀ s x, x ∈ it s ↔ x ∈ s) {v : Nat}
    (hv : v < p.numNodes) {g : K} {p' : Part} (hres : visit S T p.numNodes it p v = .ok (g, p')) (hg : g ≤ thr) :
    p' = p ∧ ∀ u ∈ neighs T p.numNodes v, ∀ cf : Nat, At p.clusters cf u →
      (moveNode p v cf).2 = p ∨ stability S (moveNode p v cf).2 + thr < stability S p := by
  obtain ⟨g1, p1, h1, h2, h3, h4, h5, h6, h7⟩ := visit_spec S T h it hit hv
  rw [h1] at hres
  injection hres with hres
  simp only [Prod.mk.injEq] at hres
  obtain ⟨rfl, rfl⟩ := hres
  have hp : p1 = p := by
    rcases h6 with h6 | ⟨cf, hcf, rfl, u, hu, hat⟩
    · exact h6
    · refine move_changes h hv hat (hR _ _ h2 h h3 rfl ?_)
      rw [h5, add_sub_cancel_left, abs_of_nonneg h4]
      exact hg
  subst hp
  refine ⟨rfl, fun u hu cf hat => ?_⟩
  by_cases hlt : stability S (moveNode p1 v cf).2 + thr < stability S p1
  · exact .inr hlt
  · left
    have hc := consistent_move (v := v) h (cf := (cf : Int)) (by omega) (by have := at_lt hat; omega)
    refine move_changes h hv hat (hR _ _ hc h (moveNode_numNodes ..).1 rfl ?_)
    have := h7 u hu cf hat
    rw [abs_of_nonpos (by linarith)]
    linarith

/-- A sweep that gains no more than the threshold moves no node, and every move would lose. -/
theorem sweep_still (S T : Nat → Nat → K) (it : Nat → Finset Int → List Int)
    (hit : ∀ v s x, x ∈ it v s ↔ x ∈ s) {thr : K} (hthr : 0 ≤ thr) (l : List Nat) (d : K) {p : Part} (h : Consistent p)
    (hR : Rigid p.numNodes S thr) (hl : ∀ v ∈ l, v < p.numNodes) {g : K} {p' : Part}
    (hres : sweep S T p.numNodes it l d p = .ok (g, p')) (hg : g ≤ d + thr) :
    p' = p ∧ ∀ v ∈ l, ∀ u ∈ neighs T p.numNodes v, ∀ cf : Nat, At p.clusters cf u →
      (moveNode p v cf).2 = p ∨ stability S (moveNode p v cf).2 + thr < stability S p := by
  induction l generalizing d with
  | nil =>
    simp only [sweep, Except.ok.injEq, Prod.mk.injEq] at hres
    exact ⟨hres.2.symm, by simp⟩
  | cons v l ih =>
    obtain ⟨g1, p1, h1, h2, h3, h4, h5, _⟩ := visit_spec S T h (it v) (hit v) (hl v (by simp))
    simp only [sweep, h1] at hres
    obtain ⟨g2, p2, e1, -, -, e4, -⟩ := sweep_spec S T it hit l (d + g1) h2 (by
      intro u hu
      rw [h3]
      exact hl u (by simp [hu]))
    rw [h3, hres] at e1
    injection e1 with e1
    simp only [Prod.mk.injEq] at e1
    obtain ⟨hp, hm⟩ := visit_still S T h hR (it v) (hit v) (hl v (by simp)) h1 (by linarith [e1.1])
    subst hp
    obtain ⟨r1, r2⟩ := ih (d + g1) (fun u hu => hl u (by simp [hu])) hres (by linarith)
    refine ⟨r1, fun w hw => ?_⟩
    rcases List.mem_cons.1 hw with rfl | hw
    · exact hm
    · exact r2 w hw

/-- A phase that gains no more than the threshold leaves every node where it was, and every move
would lose. -/
theorem phase_still (sc : Sched) (m : Nat) {thr : K} (hthr : 0 ≤ thr) (h1 : thr < 1) {nSub : Nat} (hs : 2 ≤ nSub) {c : Clu K}
    (h : Consistent c.part) (hn : c.part.numNodes = c.n) (hR : Rigid c.n c.S thr)
    (hne : ∀ cl ∈ c.part.clusters, cl.Nonempty)
    {g : K} {k : Nat} {p : Part} (hres : moveNodes sc m thr nSub c (nSub + 1) = .ok (g, k, p)) (hg : g ≤ thr) :
    p = c.part ∧ ∀ v < c.n, ∀ u ∈ neighs c.T c.n v, ∀ cf : Nat, At c.part.clusters cf u →
      (moveNode c.part v cf).2 = c.part ∨ stability c.S (moveNode c.part v cf).2 + thr < stability c.S c.part := by
  unfold moveNodes at hres
  rw [← hn] at hres hR ⊢
  have hl : ∀ v ∈ sc.order m 1 c.part.numNodes, v < c.part.numNodes := fun v hv =>
    List.mem_range.1 ((sc.order_perm m 1 _).mem_iff.1 hv)
  obtain ⟨g1, p1, e1, e2, e3, e4, e5⟩ := sweep_spec c.S c.T (sc.listing m 1) (sc.mem_listing m 1)
    (sc.order m 1 c.part.numNodes) 0 h hl
  rw [moveLoop, if_pos ⟨h1, by omega⟩, e1] at hres
  simp only at hres
  obtain ⟨g2, k2, p2, f1, f2, f3, f4, f5, f6⟩ := moveLoop_spec sc m thr nSub c.S c.T nSub (1 + 1) (0 + g1) (0 + (0 + g1)) e2 (by omega)
  rw [e3] at f1
  have f1' := f1
  rw [hres] at f1'
  injection f1' with f1'
  simp only [Prod.mk.injEq] at f1'
  have hg1 : g1 ≤ thr := by linarith [f1'.1]
  obtain ⟨r1, r2⟩ := sweep_still c.S c.T (sc.listing m 1) (sc.mem_listing m 1) hthr _ 0 h hR hl e1 (by linarith)
  subst r1
  obtain ⟨s, rfl⟩ : ∃ s, nSub = s + 1 := ⟨nSub - 1, by omega⟩
  rw [moveLoop, if_neg (by
    rintro ⟨h, -⟩
    linarith)] at hres
  simp only [Except.ok.injEq, Prod.mk.injEq] at hres
  refine ⟨?_, fun v hv => r2 v ((sc.order_perm m 1 _).mem_iff.2 (List.mem_range.2 hv))⟩
  rw [← hres.2.2]
  exact removeEmpty_of_nonempty h hne

/-! ### number of levels -/

open Classical in
/-- The smallest nodes of the clusters. -/
noncomputable def leaders (n : Nat) (cl : List (Finset Nat)) : Finset Nat :=
  (Finset.range n).filter fun u => ∀ v < u, ¬ Together cl v u

theorem together_trans {n : Nat} {cl : List (Finset Nat)} (h : IsPartition n cl) {u v w : Nat} (h1 : Together cl u v)
    (h2 : Together cl v w) : Together cl u w := by
  obtain ⟨i, hu, hv⟩ := h1
  obtain ⟨j, hv', hw⟩ := h2
  have := h.disj v i j hv hv'
  subst this
  exact ⟨i, hu, hw⟩

theorem together_symm {cl : List (Finset Nat)} {u v : Nat} (h : Together cl u v) : Together cl v u := by
  obtain ⟨i, hu, hv⟩ := h
  exact ⟨i, hv, hu⟩

theorem together_lt {n : Nat} {cl : List (Finset Nat)} (h : IsPartition n cl) {u v : Nat} (h1 : Together cl u v) : u < n := by
  obtain ⟨i, hu, hv⟩ := h1
  exact at_lt_n h hu

theorem together_refl {n : Nat} {cl : List (Finset Nat)} (h : IsPartition n cl) {u : Nat} (hu : u < n) : Together cl u u := by
  obtain ⟨i, hi, -⟩ := (h u).1 hu
  exact ⟨i, hi, hi⟩

theorem exists_leader {n : Nat} {cl : List (Finset Nat)} (h : IsPartition n cl) {u : Nat} (hu : u < n) :
    ∃ v ∈ leaders n cl, Together cl v u := by
  classical
  have hex : ∃ v, Together cl v u := ⟨u, together_refl h hu⟩
  refine ⟨Nat.find hex, ?_, Nat.find_spec hex⟩
  unfold leaders
  rw [Finset.mem_filter, Finset.mem_range]
  refine ⟨together_lt h (Nat.find_spec hex), fun w hw hT => ?_⟩
  exact Nat.find_min hex hw (together_trans h hT (Nat.find_spec hex))

/-- Coarser and not equal: fewer clusters. -/
theorem leaders_lt {n : Nat} {cl cl' : List (Finset Nat)} (h : IsPartition n cl) (h' : IsPartition n cl')
    (hc : ∀ u v, Together cl u v → Together cl' u v) (hne : ¬ ∀ u v, Together cl u v ↔ Together cl' u v) :
    (leaders n cl').card < (leaders n cl).card := by
  classical
  have hsub : leaders n cl' ⊆ leaders n cl := by
    intro u hu
    unfold leaders at hu ⊢
    rw [Finset.mem_filter] at hu ⊢
    exact ⟨hu.1, fun v hv hT => hu.2 v hv (hc _ _ hT)⟩
  apply Finset.card_lt_card
  refine ⟨hsub, fun hsub' => hne fun u v => ⟨hc u v, fun hT => ?_⟩⟩
  obtain ⟨a, ha, hau⟩ := exists_leader h (together_lt h' hT)
  obtain ⟨b, hb, hbv⟩ := exists_leader h (together_lt h' (together_symm hT))
  have hab : Together cl' a b :=
    together_trans h' (hc _ _ hau) (together_trans h' hT (together_symm (hc _ _ hbv)))
  have ha' := hsub' ha
  have hb' := hsub' hb
  unfold leaders at ha' hb'
  rw [Finset.mem_filter] at ha' hb'
  rcases lt_trichotomy a b with hlt | rfl | hlt
  · exact absurd hab (hb'.2 a hlt)
  · exact together_trans h (together_symm hau) hbv
  · exact absurd (together_symm hab) (ha'.2 b hlt)

theorem leaders_pos {n : Nat} (hn : 0 < n) (cl : List (Finset Nat)) : 0 < (leaders n cl).card := by
  classical
  apply Finset.card_pos.2
  refine ⟨0, ?_⟩
  unfold leaders
  rw [Finset.mem_filter, Finset.mem_range]
  exact ⟨hn, fun v hv => absurd hv (by omega)⟩

theorem leaders_le (n : Nat) (cl : List (Finset Nat)) : (leaders n cl).card ≤ n := by
  classical
  unfold leaders
  exact (Finset.card_filter_le _ _).trans (by simp)

/-! ### the last level -/

/-- The variables of the meta loop before a phase: the nodes of `mc` are the clusters of `og`,
one by one. -/
structure Level (T S : Nat → Nat → K) (og : Part) (mc : Clu K) : Prop where
  own : Consistent og
  pos : 0 < og.numNodes
  ne : ∀ c ∈ og.clusters, c.Nonempty
  part : Consistent mc.part
  num : mc.part.numNodes = mc.n
  len : mc.n = og.clusters.length
  single : mc.part.clusters = singletons mc.n
  cov : ∀ p : Part, p.numNodes = mc.n → Consistent p → stability mc.S p = stability (aggS S og.clusters) p
  adj : ∀ s < mc.n, ∀ t < mc.n, (∃ i ∈ og.clusters.getD s ∅, ∃ j ∈ og.clusters.getD t ∅, 0 < T i j) → 0 < mc.T s t
  adj' : ∀ s < mc.n, ∀ t < mc.n, 0 < mc.T s t → ∃ i ∈ og.clusters.getD s ∅, ∃ j ∈ og.clusters.getD t ∅, 0 < T i j

theorem level_aggregate (T S : Nat → Nat → K) {self : Part} {mc : Clu K} (h : Consistent self) (hpos : 0 < self.numNodes)
    (hne : ∀ c ∈ self.clusters, c.Nonempty) (hT : ∀ i < self.numNodes, ∀ j < self.numNodes, 0 ≤ T i j)
    (hagg : aggregate T S self = .ok mc) : Level T S self mc := by
  obtain ⟨e1, e2, e3, e4, e5⟩ := aggregate_ok T S hagg
  have hT' := Groups.aggregate_T T S hagg
  refine ⟨h, hpos, hne, e3, e4.trans e2.symm, e2, by rw [e5, e2], fun p _ _ => by rw [e1], ?_, ?_⟩
  swap
  · intro s _ t _ hst
    rw [hT'] at hst
    have h0 : aggS T self.clusters s t ≠ 0 := fun h => by simp [h] at hst
    unfold aggS blockSum at h0
    obtain ⟨i, hi, hi'⟩ := Finset.exists_ne_zero_of_sum_ne_zero h0
    obtain ⟨j, hj, hj'⟩ := Finset.exists_ne_zero_of_sum_ne_zero hi'
    exact ⟨i, hi, j, hj, lt_of_le_of_ne (hT i (at_lt_n h.1 (at_getD.1 hi)) j (at_lt_n h.1 (at_getD.1 hj))) (Ne.symm hj')⟩
  rintro s hs t ht ⟨i, hi, j, hj, hij⟩
  have hnn : ∀ a b, 0 ≤ aggS T self.clusters a b := by
    intro a b
    unfold aggS blockSum
    refine Finset.sum_nonneg fun x hx => Finset.sum_nonneg fun y hy => ?_
    exact hT x (at_lt_n h.1 (at_getD.1 hx)) y (at_lt_n h.1 (at_getD.1 hy))
  have hp : 0 < aggS T self.clusters s t := by
    unfold aggS blockSum
    refine Finset.sum_pos' (fun x hx => Finset.sum_nonneg fun y hy => ?_) ⟨i, hi, ?_⟩
    · exact hT x (at_lt_n h.1 (at_getD.1 hx)) y (at_lt_n h.1 (at_getD.1 hy))
    · refine Finset.sum_pos' (fun y hy => ?_) ⟨j, hj, hij⟩
      exact hT i (at_lt_n h.1 (at_getD.1 hi)) y (at_lt_n h.1 (at_getD.1 hy))
  rw [hT']
  refine div_pos hp ?_
  unfold rowSum
  exact Finset.sum_pos' (fun b _ => hnn s b) ⟨t, Finset.mem_range.2 (e2 ▸ ht), hp⟩

/-- One phase of the meta loop. -/
theorem level_phase (sc : Sched) (par : Params K) {T S : Nat → Nat → K} {self : Part} {mc : Clu K} (hL : Level T S self mc)
    (m : Nat) {d : K} {nl : Nat} {mp : Part} (hmove : moveNodes sc m par.thr par.nSub mc (par.nSub + 1) = .ok (d, nl, mp)) :
    ∃ self', updatePart self mp = .ok self' ∧ Consistent self' ∧ self'.numNodes = self.numNodes ∧
      (∀ c ∈ self'.clusters, c.Nonempty) ∧ 0 ≤ d ∧ stability S self' = stability S self + d ∧
      (∀ u v, Together self.clusters u v → Together self'.clusters u v) ∧
      (∀ u v s t, At self.clusters s u → At self.clusters t v →
        (Together self'.clusters u v ↔ Together mp.clusters s t)) := by
  unfold moveNodes at hmove
  rw [← hL.num] at hmove
  obtain ⟨g, k', p1, h1, h2, h3, h4, h5, h6⟩ := moveLoop_spec sc m par.thr par.nSub mc.S mc.T
    (par.nSub + 1) 1 1 0 hL.part (by omega)
  rw [h1] at hmove
  injection hmove with hmove
  simp only [Prod.mk.injEq] at hmove
  obtain ⟨hd, _, rfl⟩ := hmove
  have hp1n : p1.numNodes = self.clusters.length := by rw [h3, hL.num, hL.len]
  obtain ⟨self', h7, h8, h9, h10, h11⟩ := updatePart_spec hL.own hL.ne h2 hp1n hL.pos
  refine ⟨self', h7, h8, h9, h10, by linarith, ?_, ?_, h11⟩
  · rw [← stability_induced S hL.own h2 hp1n h8 h9 h11, ← hL.cov p1 (by rw [h3, hL.num]) h2, h5,
      hL.cov _ hL.num hL.part, stability_agg_singletons S hL.own hL.part (hL.num.trans hL.len) (by rw [hL.single, hL.len]), ← hd]
    ring
  · rintro u v ⟨i, hu, hv⟩
    rw [h11 u v i i hu hv]
    refine together_refl h2.1 ?_
    rw [hp1n]
    exact at_lt hu

/-- The search ends with a phase that gains no more than the threshold, after no more phases than
there are nodes. -/
theorem metaLoop_last (sc : Sched) (par : Params K) (hthr : 0 ≤ par.thr) (T S : Nat → Nat → K) (steps k0 : Nat)
    (delta : K) (self : Part) (mc : Clu K) (hL : Level T S self mc)
    (hT : ∀ i < self.numNodes, ∀ j < self.numNodes, 0 ≤ T i j) (hdelta : par.thr < delta) (hk0 : k0 ≤ par.nMeta)
    (k : Nat) (p : Part) (hres : metaLoop sc par T S steps k0 delta false self mc = .ok (k, p)) :
    k < k0 + (leaders self.numNodes self.clusters).card + 1 ∧
    (k ≤ par.nMeta → ∃ self1 mc1 m d nl mp, Level T S self1 mc1 ∧ self1.numNodes = self.numNodes ∧ d ≤ par.thr ∧
      moveNodes sc m par.thr par.nSub mc1 (par.nSub + 1) = .ok (d, nl, mp) ∧ updatePart self1 mp = .ok p) := by
  induction steps generalizing k0 delta self mc with
  | zero => simp [metaLoop] at hres
  | succ steps ih =>
    have hlp := leaders_pos hL.pos self.clusters
    simp only [metaLoop] at hres
    rw [if_neg (by
      rintro (h | h | h)
      · exact absurd h (not_le.2 hdelta)
      · simp at h
      · omega)] at hres
    split at hres
    · simp at hres
    · rename_i d nl mp hmove
      obtain ⟨self', h1, h2, h3, h4, h5, h6, h7, h8⟩ := level_phase sc par hL (k0 + 1) hmove
      rw [h1] at hres
      simp only at hres
      split at hres
      · rename_i hcond
        cases steps with
        | zero => simp [metaLoop] at hres
        | succ steps =>
          simp only [metaLoop] at hres
          rw [if_pos (by simp)] at hres
          simp only [Except.ok.injEq, Prod.mk.injEq] at hres
          obtain ⟨rfl, rfl⟩ := hres
          refine ⟨by omega, fun hk => ⟨self, mc, k0 + 1, d, nl, mp, hL, rfl, ?_, hmove, h1⟩⟩
          rcases hcond with hc | hc | hc
          · have heq : ∀ u v, Together self.clusters u v ↔ Together self'.clusters u v := by
              intro u v
              refine ⟨h7 u v, fun huv => ?_⟩
              have hul := together_lt h2.1 huv
              rw [together_iff] at huv
              obtain ⟨c, hcm, hu, hv⟩ := huv
              obtain ⟨x, rfl⟩ := Finset.card_eq_one.1 (hc c hcm)
              rw [Finset.mem_singleton] at hu hv
              subst hu
              subst hv
              exact together_refl hL.own.1 (h3 ▸ hul)
            rw [← inside_stability S h2 h3, ← inside_stability S hL.own rfl, inside_congr S heq] at h6
            linarith
          · omega
          · exact hc
      · rename_i hcond
        split at hres
        · simp at hres
        · rename_i mc' hagg
          have hd : par.thr < d := not_le.1 fun h => hcond (.inr (.inr h))
          have hk1 : k0 + 1 ≤ par.nMeta := by
            by_contra h
            exact hcond (.inr (.inl (by omega)))
          have hne : ¬ ∀ u v, Together self.clusters u v ↔ Together self'.clusters u v := by
            intro heq
            rw [← inside_stability S h2 h3, ← inside_stability S hL.own rfl, inside_congr S heq] at h6
            linarith
          have hlt := leaders_lt hL.own.1 (h3 ▸ h2.1) h7 hne
          have hL' := level_aggregate T S h2 (by rw [h3]; exact hL.pos) h4 (by rw [h3]; exact hT) hagg
          obtain ⟨r1, r2⟩ := ih (k0 + 1) d self' mc' hL' (by rw [h3]; exact hT) hd hk1 hres
          rw [h3] at r1
          refine ⟨by omega, fun hk => ?_⟩
          obtain ⟨a, b, c, e, f, g, i1, i2, i3⟩ := r2 hk
          exact ⟨a, b, c, e, f, g, i1, i2.trans h3, i3⟩

/-- No ties between the clusters of a level. -/
theorem rigid_level {T S : Nat → Nat → K} {self : Part} {mc : Clu K} (hL : Level T S self mc) {thr : K}
    (hR : Rigid self.numNodes S thr) : Rigid mc.n mc.S thr := by
  intro p q hp hq hpn hqn hd
  rw [hL.cov p hpn hp, hL.cov q hqn hq] at hd
  obtain ⟨p', a1, a2, a3, a4, a5⟩ := updatePart_spec hL.own hL.ne hp (hpn.trans hL.len) hL.pos
  obtain ⟨q', b1, b2, b3, b4, b5⟩ := updatePart_spec hL.own hL.ne hq (hqn.trans hL.len) hL.pos
  rw [stability_induced S hL.own hp (hpn.trans hL.len) a2 a3 a5,
    stability_induced S hL.own hq (hqn.trans hL.len) b2 b3 b5] at hd
  have key := hR p' q' a2 b2 a3 b3 hd
  have hex : ∀ s < mc.n, ∃ u, At self.clusters s u := by
    intro s hs
    rw [hL.len] at hs
    obtain ⟨u, hu⟩ := hL.ne self.clusters[s] (List.getElem_mem hs)
    exact ⟨u, _, List.getElem?_eq_getElem hs, hu⟩
  have one : ∀ (p q : Part), Consistent p → p.numNodes = mc.n → (∀ s < mc.n, ∀ t < mc.n, Together p.clusters s t → Together q.clusters s t) →
      ∀ s t, Together p.clusters s t → Together q.clusters s t := by
    intro p q hp hpn h s t hst
    exact h s (hpn ▸ together_lt hp.1 hst) t (hpn ▸ together_lt hp.1 (together_symm hst)) hst
  intro s t
  constructor
  · refine one p q hp hpn (fun s hs t ht h => ?_) s t
    obtain ⟨u, hu⟩ := hex s hs
    obtain ⟨v, hv⟩ := hex t ht
    rw [← b5 u v s t hu hv, ← key, a5 u v s t hu hv]
    exact h
  · refine one q p hq hqn (fun s hs t ht h => ?_) s t
    obtain ⟨u, hu⟩ := hex s hs
    obtain ⟨v, hv⟩ := hex t ht
    rw [← a5 u v s t hu hv, key, b5 u v s t hu hv]
    exact h

end Verif.Optimum
