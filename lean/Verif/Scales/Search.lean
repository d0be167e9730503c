import Verif.Optimum.Props

/-!
# Searches with covariances of one sign: properties C134 and C135
-/

set_option linter.dupNamespace false
set_option linter.unusedSectionVars false

namespace Verif.Scales

open Verif.Partition Verif.Louvain Verif.Optimum

variable {K : Type} [Field K] [LinearOrder K] [IsStrictOrderedRing K]

/-! ## Negative covariances -/

theorem pairs_nonpos {n : Nat} {S : Nat → Nat → K} {R : Nat → Nat → Prop} [∀ i j, Decidable (R i j)] (hr : ∀ i < n, R i i)
    (hS : ∀ i < n, ∀ j < n, i ≠ j → S i j < 0) :
    (∑ i ∈ Finset.range n, ∑ j ∈ Finset.range n, if R i j then S i j else 0) ≤ ∑ i ∈ Finset.range n, S i i ∧
      (∑ i ∈ Finset.range n, S i i ≤ (∑ i ∈ Finset.range n, ∑ j ∈ Finset.range n, if R i j then S i j else 0) →
        ∀ i < n, ∀ j < n, R i j → i = j) := by
  have hrow : ∀ i < n, (∑ j ∈ Finset.range n, if R i j then S i j else 0) =
      S i i + ∑ j ∈ (Finset.range n).erase i, if R i j then S i j else 0 := by
    intro i hi
    rw [← Finset.add_sum_erase _ _ (Finset.mem_range.2 hi), if_pos (hr i hi)]
  have hle : ∀ i ∈ Finset.range n, ∀ j ∈ (Finset.range n).erase i, (if R i j then S i j else 0) ≤ 0 := by
    intro i hi j hj
    rw [Finset.mem_erase] at hj
    split
    · exact (hS i (Finset.mem_range.1 hi) j (Finset.mem_range.1 hj.2) hj.1.symm).le
    · exact le_rfl
  have hi' : ∀ i ∈ Finset.range n, (∑ j ∈ Finset.range n, if R i j then S i j else 0) ≤ S i i := by
    intro i hi
    rw [hrow i (Finset.mem_range.1 hi)]
    linarith [Finset.sum_nonpos (hle i hi)]
  refine ⟨Finset.sum_le_sum hi', fun h i hi j hj hij => ?_⟩
  by_contra hne
  refine absurd h (not_le.2 (Finset.sum_lt_sum hi' ⟨i, Finset.mem_range.2 hi, ?_⟩))
  rw [hrow i hi]
  have : (∑ j ∈ (Finset.range n).erase i, if R i j then S i j else 0) < 0 := by
    refine Finset.sum_neg' (hle i (Finset.mem_range.2 hi)) ⟨j, Finset.mem_erase.2 ⟨fun h => hne h.symm, Finset.mem_range.2 hj⟩, ?_⟩
    rw [if_pos hij]
    exact hS i hi j hj hne
  linarith

/-- **C134**, the search.  If the covariances of all pairs of different nodes are negative and not all
covariances are negligible, the search from single nodes leaves every node alone, for all random
choices and limits. -/
theorem C134_search (sc : Sched) (par : Params K) (c : Clu K) (hfresh : FreshDefault c) (hS : ¬ sIsZero c.n c.S)
    (hneg : ∀ i < c.n, ∀ j < c.n, i ≠ j → c.S i j < 0) (k : Nat) (p : Part) (hres : findLouvain sc par c = .ok (k, p)) :
    (∀ i < c.n, {i} ∈ p.clusters) ∧ ∀ cl ∈ p.clusters, cl.card = 1 := by
  classical
  obtain ⟨h1, h2, h3, h4⟩ := C29_no_worse_from_default_partial sc par c hfresh hS k p hres
  have hstart : pairStability c.S c.part = ∑ i ∈ Finset.range c.n, c.S i i := by
    unfold FreshDefault mkClu at hfresh
    obtain ⟨q, hq, e1, e2, e3⟩ := mk'_none c.n false
    rw [hq] at hfresh
    split at hfresh
    · injection hfresh with hfresh
      have hpart : c.part = q := by rw [← hfresh]
      unfold pairStability
      rw [hpart, e2, e3]
      refine Finset.sum_congr rfl fun i hi => ?_
      rw [Finset.sum_eq_single i]
      · rw [if_pos ((together_singletons _ _ _).2 ⟨rfl, Finset.mem_range.1 hi⟩)]
      · intro j _ hj
        rw [if_neg fun h => hj ((together_singletons _ _ _).1 h).1.symm]
      · intro h
        exact absurd hi h
    · simp at hfresh
  rw [hstart] at h4
  unfold pairStability at h4
  rw [h2] at h4
  have hr : ∀ i < c.n, Together p.clusters i i := fun i hi => together_refl h1.1 (h2 ▸ hi)
  have key := (pairs_nonpos (R := Together p.clusters) hr hneg).2 (by convert h4 using 4)
  have hone : ∀ cl ∈ p.clusters, ∀ i ∈ cl, ∀ j ∈ cl, i = j := by
    intro cl hcl i hi j hj
    have ht := (together_iff _ _ _).2 ⟨cl, hcl, hi, hj⟩
    exact key i (h2 ▸ together_lt h1.1 ht) j (h2 ▸ together_lt h1.1 (together_symm ht)) ht
  constructor
  · intro i hi
    obtain ⟨cl, hcl, hm, -⟩ := (together_iff _ _ _).1 (hr i hi)
    have : cl = {i} := by
      ext j
      rw [Finset.mem_singleton]
      exact ⟨fun hj => hone cl hcl j hj i hm, fun hj => hj ▸ hm⟩
    exact this ▸ hcl
  · intro cl hcl
    obtain ⟨i, hi⟩ := h3 cl hcl
    refine Finset.card_eq_one.2 ⟨i, ?_⟩
    ext j
    rw [Finset.mem_singleton]
    exact ⟨fun hj => hone cl hcl j hj i hi, fun hj => hj ▸ hi⟩

/-! ## Positive covariances -/

/-- Gain of a move between single nodes. -/
theorem pair_gain (S : Nat → Nat → K) {p : Part} {n : Nat} (h : Consistent p) (hs : p.clusters = singletons n) {s t : Nat}
    (hsn : s < n) (htn : t < n) (hst : s ≠ t) : stability S (moveNode p s t).2 = stability S p + (S s t + S t s) := by
  have hat : ∀ v < n, At p.clusters v v := fun v hv => by rw [hs]; exact (singletons_at _ _ _).2 ⟨hv, rfl⟩
  have hd : p.dict s = some (s : Int) := (h.2 s s).2 ⟨s, rfl, hat s hsn⟩
  obtain ⟨r1, r2, e1, e2, e3⟩ := gain_exact S h hd (at_lt (hat t htn)) hst
  have hget : ∀ v < n, getCluster p (v : Int) = .ok {v} := by
    intro v hv
    rw [getCluster_nat (at_lt (hat v hv)), hs]
    simp [singletons, List.getD_eq_getElem?_getD, hv]
  unfold deltaOut at e1
  unfold deltaTo at e2
  rw [hget s hsn] at e1
  rw [hget t htn] at e2
  simp only [Finset.mem_singleton, not_true, if_false, hst, Finset.sum_singleton, Except.ok.injEq] at e1 e2
  rw [e3, ← e1, ← e2]
  ring

theorem sweep_idle (S T : Nat → Nat → K) (it : Nat → Finset Int → List Int) (hit : ∀ v s x, x ∈ it v s ↔ x ∈ s) {thr : K}
    (l : List Nat) (d : K) {p : Part} (h : Consistent p) (hs : p.clusters = singletons p.numNodes)
    (hgain : ∀ s < p.numNodes, ∀ t ∈ neighs T p.numNodes s, s ≠ t → stability S p + thr < stability S (moveNode p s t).2)
    (hl : ∀ v ∈ l, v < p.numNodes) {g : K} {p' : Part}
    (hres : sweep S T p.numNodes it l d p = .ok (g, p')) (hg : g ≤ d + thr) :
    p' = p ∧ ∀ v ∈ l, ∀ u ∈ neighs T p.numNodes v, v = u := by
  induction l generalizing d with
  | nil =>
    simp only [sweep, Except.ok.injEq, Prod.mk.injEq] at hres
    exact ⟨hres.2.symm, by simp⟩
  | cons v l ih =>
    have hv := hl v (by simp)
    obtain ⟨g1, p1, h1, h2, h3, h4, h5, h6, h7⟩ := visit_spec S T h (it v) (hit v) hv
    simp only [sweep, h1] at hres
    obtain ⟨g2, p2, e1, -, -, e4, -⟩ := sweep_spec S T it hit l (d + g1) h2 (by
      intro u hu
      rw [h3]
      exact hl u (by simp [hu]))
    rw [h3, hres] at e1
    injection e1 with e1
    simp only [Prod.mk.injEq] at e1
    have hat : ∀ v < p.numNodes, At p.clusters v v := fun v hv => by rw [hs]; exact (singletons_at _ _ _).2 ⟨hv, rfl⟩
    have hno : ∀ u ∈ neighs T p.numNodes v, v = u := by
      intro u hu
      by_contra hne
      have hun := Finset.mem_range.1 (Finset.mem_filter.1 hu).1
      have := h7 u hu u (hat u hun)
      have := hgain v hv u hu hne
      linarith [e1.1]
    have hp : p1 = p := by
      rcases h6 with h6 | ⟨cf, hcf, rfl, u, hu, hu'⟩
      · exact h6
      · obtain rfl := hno u hu
        have := h.1.disj v cf v hu' (hat v hv)
        subst this
        have hd : p.dict cf = some (cf : Int) := (h.2 cf cf).2 ⟨cf, rfl, hat cf hv⟩
        unfold moveNode
        rw [hd]
        simp
    subst hp
    obtain ⟨r1, r2⟩ := ih (d + g1) (fun u hu => hl u (by simp [hu])) hres (by linarith)
    refine ⟨r1, fun w hw => ?_⟩
    rcases List.mem_cons.1 hw with rfl | hw
    · exact hno
    · exact r2 w hw

/-- A phase over single nodes, in which every link would bring more than the threshold, gains no more
than the threshold only if there are no links. -/
theorem phase_idle (sc : Sched) (m : Nat) {thr : K} (h1 : thr < 1) {nSub : Nat} (hs : 2 ≤ nSub) {c : Clu K}
    (h : Consistent c.part) (hn : c.part.numNodes = c.n) (hsing : c.part.clusters = singletons c.n)
    (hgain : ∀ s < c.n, ∀ t ∈ neighs c.T c.n s, s ≠ t → stability c.S c.part + thr < stability c.S (moveNode c.part s t).2)
    {g : K} {k : Nat} {p : Part} (hres : moveNodes sc m thr nSub c (nSub + 1) = .ok (g, k, p)) (hg : g ≤ thr) :
    p = c.part ∧ ∀ v < c.n, ∀ u ∈ neighs c.T c.n v, v = u := by
  unfold moveNodes at hres
  rw [← hn] at hres hgain hsing ⊢
  have hl : ∀ v ∈ sc.order m 1 c.part.numNodes, v < c.part.numNodes := fun v hv =>
    List.mem_range.1 ((sc.order_perm m 1 _).mem_iff.1 hv)
  obtain ⟨g1, p1, e1, e2, e3, e4, e5⟩ := sweep_spec c.S c.T (sc.listing m 1) (sc.mem_listing m 1)
    (sc.order m 1 c.part.numNodes) 0 h hl
  rw [moveLoop, if_pos ⟨h1, by omega⟩, e1] at hres
  simp only at hres
  obtain ⟨g2, k2, p2, f1, f2, f3, f4, f5, f6⟩ := moveLoop_spec sc m thr nSub c.S c.T nSub (1 + 1) (0 + g1) (0 + (0 + g1)) e2 (by omega)
  rw [e3] at f1
  have f1' := f1
  rw [hres] at f1'
  injection f1' with f1'
  simp only [Prod.mk.injEq] at f1'
  have hg1 : g1 ≤ thr := by linarith [f1'.1]
  obtain ⟨r1, r2⟩ := sweep_idle c.S c.T (sc.listing m 1) (sc.mem_listing m 1) _ 0 h hsing hgain hl e1 (by linarith)
  subst r1
  obtain ⟨s, rfl⟩ : ∃ s, nSub = s + 1 := ⟨nSub - 1, by omega⟩
  rw [moveLoop, if_neg (by
    rintro ⟨h, -⟩
    linarith)] at hres
  simp only [Except.ok.injEq, Prod.mk.injEq] at hres
  refine ⟨?_, fun v hv => r2 v ((sc.order_perm m 1 _).mem_iff.2 (List.mem_range.2 hv))⟩
  rw [← hres.2.2]
  exact removeEmpty_of_nonempty h (by rw [hsing]; exact singletons_nonempty _)

/-- Two nodes are linked by a chain of possible steps of the walk, in either direction. -/
def Chain (n : Nat) (T : Nat → Nat → K) : Nat → Nat → Prop :=
  Relation.ReflTransGen fun i j => i < n ∧ j < n ∧ (0 < T i j ∨ 0 < T j i)

theorem chain_symm {n : Nat} {T : Nat → Nat → K} {i j : Nat} (h : Chain n T i j) : Chain n T j i := by
  induction h with
  | refl => exact .refl
  | tail _ hs ih => exact .head ⟨hs.2.1, hs.1, hs.2.2.symm⟩ ih

/-- **C135**, the search.  If the covariances of all pairs of different nodes that a chain of steps
links exceed half the threshold, which is small, the search finds exactly the groups of linked nodes,
for all random choices. -/
theorem C135_search (sc : Sched) (par : Params K) (hthr : 0 ≤ par.thr) (h1 : par.thr < 1) (hsub : 2 ≤ par.nSub)
    (c : Clu K) (hmeta : c.n ≤ par.nMeta) (hfresh : FreshDefault c) (hS : ¬ sIsZero c.n c.S)
    (hT : ∀ i < c.n, ∀ j < c.n, 0 ≤ c.T i j)
    (hpos : ∀ i < c.n, ∀ j < c.n, i ≠ j → Chain c.n c.T i j → par.thr < c.S i j + c.S j i)
    (k : Nat) (p : Part) (hres : findLouvain sc par c = .ok (k, p)) (i j : Nat) (hi : i < c.n) (hj : j < c.n) :
    Together p.clusters i j ↔ Chain c.n c.T i j := by
  have hunm : Groups.Unmixed (fun i => {j | Chain c.n c.T i j}) p.clusters := by
    refine Groups.C129_louvain sc par c hfresh (fun i hi j hj hne => ?_) hS k p hres
    have hij : Chain c.n c.T i j := .single ⟨hi, hj, .inl (lt_of_le_of_ne (hT i hi j hj) (Ne.symm hne))⟩
    ext x
    exact ⟨fun h => (chain_symm hij).trans h, fun h => hij.trans h⟩
  have hto : ∀ u v, Together p.clusters u v → Chain c.n c.T u v := by
    intro u v h
    have : {j | Chain c.n c.T u j} = {j | Chain c.n c.T v j} := hunm u v h
    exact (Set.ext_iff.1 this v).2 .refl
  refine ⟨hto i j, fun hch => ?_⟩
  obtain ⟨hk, hlast⟩ := findLouvain_last sc hthr h1 hfresh hT hS hres
  obtain ⟨self, mc, m, d, nl, mp, hL, hn, hd, hmove, hup⟩ := hlast (hk.trans hmeta)
  obtain ⟨p', e1, e2, e3, e4, -, -, e7, e8⟩ := level_phase sc par hL m hmove
  rw [hup] at e1
  cases e1
  have hchain : ∀ s u v, At self.clusters s u → At self.clusters s v → Chain c.n c.T u v := fun s u v hu hv =>
    hto u v (e7 u v ⟨s, hu, hv⟩)
  have hgain : ∀ s < mc.n, ∀ t ∈ neighs mc.T mc.n s, s ≠ t →
      stability mc.S mc.part + par.thr < stability mc.S (moveNode mc.part s t).2 := by
    intro s hs t ht hst
    have htn := Finset.mem_range.1 (Finset.mem_filter.1 ht).1
    have hatt : At mc.part.clusters t t := by rw [hL.single]; exact (singletons_at _ _ _).2 ⟨htn, rfl⟩
    have hcm := consistent_move (v := s) hL.part (cf := (t : Int)) (by omega) (by have := at_lt hatt; omega)
    have hcn : (moveNode mc.part s t).2.numNodes = mc.n := (moveNode_numNodes ..).1.trans hL.num
    rw [hL.cov _ hcn hcm, hL.cov _ hL.num hL.part, pair_gain _ hL.part hL.single hs htn hst]
    obtain ⟨i0, hi0, j0, hj0, h0⟩ : ∃ i ∈ self.clusters.getD s ∅, ∃ j ∈ self.clusters.getD t ∅, 0 < c.T i j ∨ 0 < c.T j i := by
      rcases (Finset.mem_filter.1 ht).2 with h | h
      · obtain ⟨i, hi, j, hj, h⟩ := hL.adj' s hs t htn h
        exact ⟨i, hi, j, hj, .inl h⟩
      · obtain ⟨i, hi, j, hj, h⟩ := hL.adj' t htn s hs h
        exact ⟨j, hj, i, hi, .inr h⟩
    have hlt : ∀ s u, u ∈ self.clusters.getD s ∅ → u < c.n := fun s u hu => hn ▸ at_lt_n hL.own.1 (at_getD.1 hu)
    have hpair : ∀ i ∈ self.clusters.getD s ∅, ∀ j ∈ self.clusters.getD t ∅, par.thr < c.S i j + c.S j i := by
      intro i hi j hj
      refine hpos i (hlt s i hi) j (hlt t j hj) ?_ ?_
      · rintro rfl
        exact hst (hL.own.1.disj i s t (at_getD.1 hi) (at_getD.1 hj))
      · exact (hchain s i i0 (at_getD.1 hi) (at_getD.1 hi0)).trans
          (.head ⟨hlt s i0 hi0, hlt t j0 hj0, h0⟩ (hchain t j0 j (at_getD.1 hj0) (at_getD.1 hj)))
    have hsum : aggS c.S self.clusters s t + aggS c.S self.clusters t s =
        ∑ i ∈ self.clusters.getD s ∅, ∑ j ∈ self.clusters.getD t ∅, (c.S i j + c.S j i) := by
      unfold aggS blockSum
      rw [Finset.sum_comm (s := self.clusters.getD t ∅), ← Finset.sum_add_distrib]
      exact Finset.sum_congr rfl fun i _ => Finset.sum_add_distrib.symm
    rw [hsum]
    have hnn : ∀ i ∈ self.clusters.getD s ∅, ∀ j ∈ self.clusters.getD t ∅, 0 ≤ c.S i j + c.S j i :=
      fun i hi j hj => hthr.trans (hpair i hi j hj).le
    have s1 := Finset.single_le_sum (hnn i0 hi0) hj0
    have s2 := Finset.single_le_sum (f := fun i => ∑ j ∈ self.clusters.getD t ∅, (c.S i j + c.S j i))
      (fun i hi => Finset.sum_nonneg (hnn i hi)) hi0
    have := hpair i0 hi0 j0 hj0
    linarith
  obtain ⟨rfl, hidle⟩ := phase_idle sc m h1 hsub hL.part hL.num hL.single hgain hmove hd
  induction hch with
  | refl => exact together_refl e2.1 (by rw [e3, hn]; exact hi)
  | tail _ hstep ih =>
    rename_i a b _
    obtain ⟨ha, hb, hab⟩ := hstep
    refine together_trans e2.1 (ih ha) ?_
    obtain ⟨s, -, hs⟩ := hL.own.dict_some (hn ▸ ha)
    obtain ⟨t, -, ht⟩ := hL.own.dict_some (hn ▸ hb)
    have hsn : s < mc.n := by rw [hL.len]; exact at_lt hs
    have htn : t < mc.n := by rw [hL.len]; exact at_lt ht
    have : s = t := by
      refine hidle s hsn t ?_
      unfold neighs
      rw [Finset.mem_filter, Finset.mem_range]
      refine ⟨htn, ?_⟩
      rcases hab with h | h
      · exact .inl (hL.adj s hsn t htn ⟨a, at_getD.2 hs, b, at_getD.2 ht, h⟩)
      · exact .inr (hL.adj t htn s hsn ⟨b, at_getD.2 ht, a, at_getD.2 hs, h⟩)
    subst this
    exact e7 a b ⟨s, hs, ht⟩

/-- A walk on four nodes that mostly stays. -/
def lazyT : Nat → Nat → ℚ := fun i j => if i = j then 9 / 10 else 1 / 30

/-- The hypotheses of `C134_search` are met. -/
example : FreshDefault (station 4 lazyT) ∧ ¬ sIsZero 4 (station 4 lazyT).S ∧
    (∀ i < 4, ∀ j < 4, i ≠ j → (station 4 lazyT).S i j < 0) ∧
    found (findLouvain exSched exPar (station 4 lazyT)) = some [{0}, {1}, {2}, {3}] :=
  ⟨station_fresh (by decide +kernel), by decide +kernel, by decide +kernel, by decide +kernel⟩

/-- Two groups of two nodes each, in which the walk mixes. -/
def mixT : Nat → Nat → ℚ := fun i j => if i / 2 = j / 2 then 1 / 2 else 0

/-- The hypotheses of `C135_search` are met. -/
example : FreshDefault (station 4 mixT) ∧ ¬ sIsZero 4 (station 4 mixT).S ∧ (∀ i < 4, ∀ j < 4, 0 ≤ mixT i j) ∧
    0 ≤ exPar.thr ∧ exPar.thr < 1 ∧ 2 ≤ exPar.nSub ∧ 4 ≤ exPar.nMeta ∧
    (∀ i < 4, ∀ j < 4, i ≠ j → Chain 4 mixT i j → exPar.thr < (station 4 mixT).S i j + (station 4 mixT).S j i) ∧
    Chain 4 mixT 0 1 ∧ found (findLouvain exSched exPar (station 4 mixT)) = some [{0, 1}, {2, 3}] := by
  refine ⟨station_fresh (by decide +kernel), by decide +kernel, by decide +kernel, by decide +kernel, by decide +kernel, by decide,
    by decide, fun i hi j hj hij hch => ?_, .single ⟨by omega, by omega, .inl (by decide +kernel)⟩, by decide +kernel⟩
  have h2 : i / 2 = j / 2 := by
    clear hi hj hij
    induction hch with
    | refl => rfl
    | tail _ h ih =>
      refine ih.trans ?_
      unfold mixT at h
      by_contra hc
      rw [if_neg hc, if_neg (Ne.symm hc)] at h
      simp at h
  have : ∀ i < 4, ∀ j < 4, i ≠ j → i / 2 = j / 2 → exPar.thr < (station 4 mixT).S i j + (station 4 mixT).S j i := by decide +kernel
  exact this i hi j hj hij h2

end Verif.Scales
