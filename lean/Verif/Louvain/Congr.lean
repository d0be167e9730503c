import Verif.Louvain.Props

/-! # The search reads only the entries of its nodes -/

set_option linter.dupNamespace false
set_option linter.unusedSectionVars false

namespace Verif.Louvain

open Verif.Partition

variable {K : Type} [Field K] [LinearOrder K] [IsStrictOrderedRing K]

/-- Equal entries for the first `n` nodes. -/
def Same (n : Nat) (A B : Nat → Nat → K) : Prop := ∀ i < n, ∀ j < n, A i j = B i j

theorem getCluster_lt {p : Part} (h : Consistent p) {ci : Int} {c : Finset Nat}
    (hc : getCluster p ci = .ok c) : ∀ v ∈ c, v < p.numNodes := by
  unfold getCluster at hc
  split at hc
  · simp at hc
  · rename_i k _
    injection hc with hc
    subst hc
    intro v hv
    exact at_lt_n h.1 (at_iff_getD.2 hv)

theorem deltaTo_congr {S S' : Nat → Nat → K} {p : Part} (h : Consistent p) (hS : Same p.numNodes S S') {v : Nat}
    (hv : v < p.numNodes) (cf : Int) : deltaTo S p v cf = deltaTo S' p v cf := by
  unfold deltaTo
  cases hc : getCluster p cf with
  | error e => rfl
  | ok c =>
    have hl := getCluster_lt h hc
    simp only
    rw [Finset.sum_congr rfl fun j hj => hS v hv j (hl j hj), Finset.sum_congr rfl fun j hj => hS j (hl j hj) v hv,
      hS v hv v hv]

theorem deltaOut_congr {S S' : Nat → Nat → K} {p : Part} (h : Consistent p) (hS : Same p.numNodes S S') {v : Nat}
    (hv : v < p.numNodes) (cf : Int) : deltaOut S p v cf = deltaOut S' p v cf := by
  unfold deltaOut
  cases hc : getCluster p cf with
  | error e => rfl
  | ok c =>
    have hl := getCluster_lt h hc
    simp only
    rw [Finset.sum_congr rfl fun j hj => hS v hv j (hl j hj), Finset.sum_congr rfl fun j hj => hS j (hl j hj) v hv,
      hS v hv v hv]

theorem scan_congr {S S' : Nat → Nat → K} {p : Part} (h : Consistent p) (hS : Same p.numNodes S S') {v : Nat}
    (hv : v < p.numNodes) (ci : Int) (r : K) (l : List Int) (b : K) (c : Int) :
    scan S p v ci r l b c = scan S' p v ci r l b c := by
  induction l generalizing b c with
  | nil => rfl
  | cons x l ih =>
    simp only [scan, deltaTo_congr h hS hv x, ih]

theorem neighs_congr {T T' : Nat → Nat → K} {n v : Nat} (hT : Same n T T') (hv : v < n) : neighs T n v = neighs T' n v := by
  unfold neighs
  refine Finset.filter_congr fun j hj => ?_
  rw [hT v hv j (Finset.mem_range.1 hj), hT j (Finset.mem_range.1 hj) v hv]

theorem visit_congr {S S' T T' : Nat → Nat → K} {p : Part} (h : Consistent p) (hS : Same p.numNodes S S')
    (hT : Same p.numNodes T T') (it : Finset Int → List Int) {v : Nat} (hv : v < p.numNodes) :
    visit S T p.numNodes it p v = visit S' T' p.numNodes it p v := by
  unfold visit
  simp only [deltaOut_congr h hS hv, neighs_congr hT hv, scan_congr h hS hv]

theorem sweep_congr {S S' T T' : Nat → Nat → K} (it : Nat → Finset Int → List Int)
    (hit : ∀ v s x, x ∈ it v s ↔ x ∈ s) (l : List Nat) (d : K) {p : Part} (h : Consistent p)
    (hS : Same p.numNodes S S') (hT : Same p.numNodes T T') (hl : ∀ v ∈ l, v < p.numNodes) :
    sweep S T p.numNodes it l d p = sweep S' T' p.numNodes it l d p := by
  induction l generalizing d p with
  | nil => rfl
  | cons v l ih =>
    obtain ⟨g1, p1, h1, h2, h3, _⟩ := visit_spec S T h (it v) (hit v) (hl v (by simp))
    have e := visit_congr h hS hT (it v) (hl v (by simp))
    simp only [sweep, ← e, h1]
    rw [← h3]
    exact ih _ h2 (by rw [h3]; exact hS) (by rw [h3]; exact hT) (fun u hu => by rw [h3]; exact hl u (by simp [hu]))

theorem moveLoop_congr (sc : Sched) (m : Nat) (thr : K) (nSub : Nat) {S S' T T' : Nat → Nat → K}
    (steps nLoop : Nat) (dLoop dTot : K) {p : Part} (h : Consistent p) (hS : Same p.numNodes S S')
    (hT : Same p.numNodes T T') :
    moveLoop sc m thr nSub S T p.numNodes steps nLoop dLoop dTot p =
      moveLoop sc m thr nSub S' T' p.numNodes steps nLoop dLoop dTot p := by
  induction steps generalizing nLoop dLoop dTot p with
  | zero => rfl
  | succ steps ih =>
    unfold moveLoop
    have hl : ∀ v ∈ sc.order m nLoop p.numNodes, v < p.numNodes := by
      intro v hv
      exact List.mem_range.1 ((sc.order_perm m nLoop _).mem_iff.1 hv)
    split
    · obtain ⟨g1, p1, h1, h2, h3, _⟩ := sweep_spec S T (sc.listing m nLoop)
        (sc.mem_listing m nLoop) (sc.order m nLoop p.numNodes) 0 h hl
      rw [← sweep_congr (sc.listing m nLoop) (sc.mem_listing m nLoop) _ 0 h hS hT hl, h1]
      simp only
      rw [← h3]
      exact ih _ _ _ h2 (by rw [h3]; exact hS) (by rw [h3]; exact hT)
    · rfl

theorem aggS_congr {T T' : Nat → Nat → K} {p : Part} (h : Consistent p) (hT : Same p.numNodes T T') :
    aggS T p.clusters = aggS T' p.clusters := by
  funext s t
  unfold aggS blockSum
  refine Finset.sum_congr rfl fun i hi => Finset.sum_congr rfl fun j hj => ?_
  exact hT i (at_lt_n h.1 (at_getD.1 hi)) j (at_lt_n h.1 (at_getD.1 hj))

theorem aggregate_congr {S S' T T' : Nat → Nat → K} {p : Part} (h : Consistent p) (hS : Same p.numNodes S S')
    (hT : Same p.numNodes T T') : aggregate T S p = aggregate T' S' p := by
  unfold aggregate
  simp only [aggS_congr h hS, aggS_congr h hT]

theorem metaLoop_congr (sc : Sched) (par : Params K) {S S' T T' : Nat → Nat → K} (steps k0 : Nat)
    (delta : K) (stop : Bool) (self : Part) (mc mc' : Clu K) (hself : Consistent self)
    (hpos : 0 < self.numNodes) (hne : ∀ c ∈ self.clusters, c.Nonempty)
    (hS : Same self.numNodes S S') (hT : Same self.numNodes T T')
    (hinv : stop = true ∨ (Consistent mc.part ∧ mc.part.numNodes = mc.n ∧ mc.n = self.clusters.length ∧
      mc'.n = mc.n ∧ mc'.part = mc.part ∧ Same mc.n mc.S mc'.S ∧ Same mc.n mc.T mc'.T)) :
    metaLoop sc par T S steps k0 delta stop self mc = metaLoop sc par T' S' steps k0 delta stop self mc' := by
  induction steps generalizing k0 delta stop self mc mc' with
  | zero => rfl
  | succ steps ih =>
    simp only [metaLoop]
    split
    · rfl
    · rename_i hcond
      have hstop : stop ≠ true := fun h => hcond (Or.inr (Or.inl h))
      obtain ⟨hmc, hmn, hlen, e1, e2, e3, e4⟩ := hinv.resolve_left hstop
      have hm : moveNodes sc (k0 + 1) par.thr par.nSub mc (par.nSub + 1) =
          moveNodes sc (k0 + 1) par.thr par.nSub mc' (par.nSub + 1) := by
        unfold moveNodes
        rw [e1, e2, ← hmn]
        exact moveLoop_congr sc _ _ _ _ _ _ _ hmc (by rw [hmn]; exact e3) (by rw [hmn]; exact e4)
      rw [← hm]
      obtain ⟨g, k', p1, h1, h2, h3, h4, h5, h6⟩ := moveLoop_spec sc (k0 + 1) par.thr par.nSub mc.S mc.T
        (par.nSub + 1) 1 1 0 hmc (by omega)
      have hM : moveNodes sc (k0 + 1) par.thr par.nSub mc (par.nSub + 1) =
          moveLoop sc (k0 + 1) par.thr par.nSub mc.S mc.T mc.part.numNodes (par.nSub + 1) 1 1 0 mc.part := by
        unfold moveNodes
        rw [hmn]
      rw [hM, h1]
      simp only
      have hp1n : p1.numNodes = self.clusters.length := by rw [h3, hmn, hlen]
      obtain ⟨self', h7, h8, h9, h10, h11⟩ := updatePart_spec hself hne h2 hp1n hpos
      rw [h7]
      simp only
      split
      · exact ih _ _ _ self' _ _ h8 (by omega) h10 (by rw [h9]; exact hS) (by rw [h9]; exact hT) (Or.inl rfl)
      · have hag : aggregate T' S' self' = aggregate T S self' :=
          (aggregate_congr h8 (by rw [h9]; exact hS) (by rw [h9]; exact hT)).symm
        rw [hag]
        cases hagg : aggregate T S self' with
        | error e => rfl
        | ok mc2 =>
          simp only
          obtain ⟨a1, a2, a3, a4, a5⟩ := aggregate_ok T S hagg
          exact ih _ _ _ self' mc2 mc2 h8 (by omega) h10 (by rw [h9]; exact hS) (by rw [h9]; exact hT) (Or.inr
            ⟨a3, by rw [a4, a2], a2, rfl, rfl, fun _ _ _ _ => rfl, fun _ _ _ _ => rfl⟩)

theorem rowsOk_congr {n : Nat} {T T' : Nat → Nat → K} (h : Same n T T') : rowsOk n T ↔ rowsOk n T' := by
  unfold rowsOk
  have e : ∀ i < n, rowSum n T i = rowSum n T' i := fun i hi => Finset.sum_congr rfl fun j hj => h i hi j (Finset.mem_range.1 hj)
  refine forall_congr' fun i => forall_congr' fun hi => ?_
  rw [e i hi]

theorem sIsZero_congr {n : Nat} {S S' : Nat → Nat → K} (h : Same n S S') : sIsZero n S ↔ sIsZero n S' := by
  unfold sIsZero
  refine forall_congr' fun i => forall_congr' fun hi => forall_congr' fun j => forall_congr' fun hj => ?_
  rw [h i hi j hj]

/-- The result of `Clustering(T=T, S=S)` followed by `find_louvain_clustering` does not depend on
what is not in the matrices. -/
theorem search_congr (sc : Sched) (par : Params K) {n : Nat} {S S' T T' : Nat → Nat → K} (hS : Same n S S') (hT : Same n T T')
    {c : Clu K} {r : Nat × Part} (hc : mkClu n T S .none = .ok c) (hr : findLouvain sc par c = .ok r) :
    ∃ c', mkClu n T' S' .none = .ok c' ∧ findLouvain sc par c' = .ok r := by
  unfold mkClu at hc ⊢
  obtain ⟨q, hq, h1, h2, h3⟩ := mk'_none n false
  rw [hq] at hc ⊢
  split at hc
  · rename_i hrows
    rw [if_pos ((rowsOk_congr hT).1 hrows)]
    refine ⟨_, rfl, ?_⟩
    injection hc with hc
    subst hc
    unfold findLouvain at hr ⊢
    dsimp only at hr ⊢
    have hne : ∀ cl ∈ q.clusters, cl.Nonempty := by rw [h3]; exact singletons_nonempty _
    have hlen : q.clusters.length = n := by rw [h3]; simp [singletons]
    have hqe : removeEmpty { numNodes := n, clusters := q.clusters, dict := dictOf q.clusters } = q := by
      have := removeEmpty_of_nonempty h1 hne
      rw [← this]
      unfold removeEmpty
      simp only [h2]
      congr 1 <;> simp
    by_cases h0 : n = 0
    · rw [if_pos h0] at hr
      cases hr
    · rw [if_neg h0] at hr ⊢
      by_cases hz : sIsZero n S
      · rw [if_pos hz] at hr
        rw [if_pos ((sIsZero_congr hS).1 hz)]
        exact hr
      · rw [if_neg hz] at hr
        rw [if_neg fun h => hz ((sIsZero_congr hS).2 h)]
        unfold mkClu at hr ⊢
        rw [if_pos hrows, mk'_clusterList, hqe] at hr
        rw [if_pos ((rowsOk_congr hT).1 hrows), mk'_clusterList, hqe]
        simp only at hr ⊢
        rw [← hr]
        symm
        refine metaLoop_congr sc par _ _ _ _ _ _ _ h1 (by omega) hne (by rw [h2]; exact hS) (by rw [h2]; exact hT) (.inr ?_)
        exact ⟨h1, h2, hlen.symm, rfl, rfl, hS, hT⟩
  · simp at hc

end Verif.Louvain
