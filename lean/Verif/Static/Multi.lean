import Verif.Static.Directed

/-!
# C74: repeated clusterings of one object; Louvain clustering of a static network
-/

set_option linter.dupNamespace false
set_option linter.unusedSectionVars false

namespace Verif.Static

open Verif.Trans Verif.Louvain Verif.Partition Finset

variable {K : Type} [Field K] [LinearOrder K] [IsStrictOrderedRing K]

/-- Stability of a list of clusters: sum over the ordered pairs of nodes that are together. -/
noncomputable def pairSum (n : Nat) (S : Nat → Nat → K) (cl : List (Finset Nat)) : K :=
  open Classical in
  ∑ i ∈ range n, ∑ j ∈ range n, if Together cl i j then S i j else 0

theorem fresh_part {c : Clu K} (h : FreshDefault c) :
    Consistent c.part ∧ c.part.numNodes = c.n ∧ c.part.clusters = singletons c.n ∧ rowsOk c.n c.T := by
  obtain ⟨q, hq, h1, h2, h3⟩ := mk'_none c.n false
  unfold FreshDefault mkClu at h
  rw [hq] at h
  split at h
  · rename_i hrows
    injection h with h
    have hp : c.part = q := by rw [← h]
    rw [hp]
    exact ⟨h1, h2, h3, hrows⟩
  · simp at h

theorem pairStability_eq {S : Nat → Nat → K} {p : Part} {n : Nat} (h : p.numNodes = n) :
    pairStability S p = pairSum n S p.clusters := by
  unfold pairStability pairSum
  rw [h]

theorem pairSum_singletons (n : Nat) (S : Nat → Nat → K) :
    pairSum n S (singletons n) = ∑ i ∈ range n, S i i := by
  classical
  obtain ⟨q, _, h1, h2, h3⟩ := mk'_none n false
  rw [← h3]
  unfold pairSum
  refine Finset.sum_congr rfl fun i hi => ?_
  have hi' := mem_range.1 hi
  have key : ∀ j, Together q.clusters i j ↔ j = i := by
    intro j
    rw [h3]
    unfold Together At singletons
    simp only [List.getElem?_map, Option.map_eq_some_iff, List.getElem?_range']
    constructor
    · rintro ⟨k, ⟨c, ⟨a, ha, rfl⟩, hc⟩, ⟨c', ⟨a', ha', rfl⟩, hc'⟩⟩
      rw [ha] at ha'
      injection ha' with ha'
      rw [Finset.mem_singleton] at hc hc'
      omega
    · rintro rfl
      exact ⟨j, ⟨{j}, ⟨j, by simp [hi'], rfl⟩, by simp⟩, ⟨{j}, ⟨j, by simp [hi'], rfl⟩, by simp⟩⟩
  simp only [key]
  rw [Finset.sum_eq_single i]
  · simp
  · intro j _ hj; rw [if_neg hj]
  · intro h; exact absurd hi h

/-- One run on an object with a stochastic matrix. -/
theorem oneRun_spec (sc : Sched) (par : Params K) (c : Clu K) (hn : 0 < c.n)
    (hrow : rowsOk c.n c.T) (hT : ∀ i < c.n, 0 < rowSum c.n c.T i) :
    ∃ k cl s, oneRun sc par c = .ok (k, cl, s) ∧ k ≤ par.nMeta + 1 ∧ IsPartition c.n cl ∧
      s = pairSum c.n c.S cl ∧ (∑ i ∈ range c.n, c.S i i) - 2 / 10 ^ 6 ≤ s ∧
      (¬ sIsZero c.n c.S → ∑ i ∈ range c.n, c.S i i ≤ s) := by
  obtain ⟨d, h1, h2, h3, h4, h5, h6, h7⟩ := mkClu_ok (n := c.n) (T := c.T) (S := c.S) hrow
  obtain ⟨k, p, hf⟩ := C29_returns_partial sc par d h2 (by rw [h3]; exact hn)
    (by rw [h3, h4]; exact hT)
  have hk := (C30_meta_loops_bounded sc par d).2 k p hf
  have hsing : pairStability d.S d.part = ∑ i ∈ range c.n, c.S i i := by
    obtain ⟨_, hq2, hq3, _⟩ := fresh_part h2
    rw [pairStability_eq hq2, hq3, pairSum_singletons, h3, h5]
  have hfacts : Consistent p ∧ p.numNodes = c.n ∧
      (∑ i ∈ range c.n, c.S i i) - 2 / 10 ^ 6 ≤ pairStability d.S p ∧
      (¬ sIsZero c.n c.S → ∑ i ∈ range c.n, c.S i i ≤ pairStability d.S p) := by
    by_cases hS : sIsZero d.n d.S
    · obtain ⟨p', hp', hc', _, hle⟩ := C29_negligible_covariance_partial sc par d h6
        (h7.trans h3.symm) (by rw [h3]; exact hn) hS
      rw [hf] at hp'
      simp only [Except.ok.injEq, Prod.mk.injEq] at hp'
      obtain ⟨_, rfl⟩ := hp'
      refine ⟨hc', ?_, by rw [← hsing]; exact hle, fun hcon => ?_⟩
      · unfold findLouvain at hf
        rw [if_neg (by rw [h3]; omega), if_pos hS, mk'_clusterList] at hf
        simp only [Except.ok.injEq, Prod.mk.injEq] at hf
        rw [← hf.2]
        exact h3
      · rw [h3, h5] at hS
        exact absurd hS hcon
    · obtain ⟨a, b, _, e⟩ := C29_no_worse_from_default_partial sc par d h2 hS k p hf
      rw [hsing] at e
      refine ⟨a, b.trans h3, ?_, fun _ => e⟩
      have : (0 : K) ≤ 2 / 10 ^ 6 := by positivity
      linarith
  obtain ⟨hc, hpn, hle, hle'⟩ := hfacts
  have hst : stability c.S p = pairStability d.S p := by
    rw [h5]; exact C26_stability_is_pair_sum c.S p hc
  refine ⟨k, p.clusters, stability c.S p, ?_, hk, ?_, ?_, by rw [hst]; exact hle,
    fun hz => by rw [hst]; exact hle' hz⟩
  · unfold oneRun
    rw [h1]
    simp only [hf]
  · rw [← hpn]; exact hc.1
  · rw [C26_stability_is_pair_sum c.S p hc, pairStability_eq hpn]

/-- **C74.** For every object the constructor accepts and whose rows have positive sums, and all
random numbers: as many results as repetitions; each list of clusters is a partition of the
nodes, the stability beside it is the stability of this partition, and it is not below that of
single nodes (up to the bound below which a covariance counts as zero). -/
theorem C74_results (par : Params K) (c : Clu K) (hn : 0 < c.n) (hrow : rowsOk c.n c.T)
    (hT : ∀ i < c.n, 0 < rowSum c.n c.T i) (l : List Sched) :
    ∃ rs, runMulti par c l = .ok rs ∧ rs.length = l.length ∧ ∀ r ∈ rs,
      r.1 ≤ par.nMeta + 1 ∧ IsPartition c.n r.2.1 ∧ r.2.2 = pairSum c.n c.S r.2.1 ∧
      pairSum c.n c.S (singletons c.n) - 2 / 10 ^ 6 ≤ r.2.2 ∧
      (¬ sIsZero c.n c.S → pairSum c.n c.S (singletons c.n) ≤ r.2.2) := by
  induction l with
  | nil => exact ⟨[], rfl, rfl, by simp⟩
  | cons sc l ih =>
    obtain ⟨rs, h1, h2, h3⟩ := ih
    obtain ⟨k, cl, s, g1, g2⟩ := oneRun_spec sc par c hn hrow hT
    refine ⟨(k, cl, s) :: rs, ?_, by simp [h2], ?_⟩
    · unfold runMulti
      rw [g1, h1]
    · intro r hr
      rcases List.mem_cons.1 hr with rfl | hr
      · rw [pairSum_singletons]
        exact g2
      · exact h3 r hr

/-- **C74.** The repetitions are independent: the result of each depends on its own random
numbers only, whatever the others are. -/
theorem C74_independent (par : Params K) (c : Clu K) (l : List Sched)
    (rs : List (Nat × List (Finset Nat) × K)) (h : runMulti par c l = .ok rs) (i : Nat) (sc : Sched)
    (hi : l[i]? = some sc) : ∃ r, rs[i]? = some r ∧ runMulti par c [sc] = .ok [r] := by
  induction l generalizing rs i with
  | nil => simp at hi
  | cons sc' l ih =>
    unfold runMulti at h
    split at h
    · simp at h
    · rename_i r hr
      split at h
      · simp at h
      · rename_i rs' hrs'
        simp only [Except.ok.injEq] at h
        subst h
        cases i with
        | zero =>
          simp only [List.getElem?_cons_zero, Option.some.injEq] at hi
          subst hi
          refine ⟨r, by simp, ?_⟩
          unfold runMulti
          rw [hr]
          rfl
        | succ i =>
          obtain ⟨r', h1, h2⟩ := ih rs' hrs' i (by simpa using hi)
          exact ⟨r', by simpa using h1, h2⟩

/-- **C74.** The partition that the given object holds has no influence. -/
theorem C74_start_ignored (par : Params K) (c : Clu K) (p : Part) (l : List Sched) :
    runMulti par { c with part := p } l = runMulti par c l := by
  induction l with
  | nil => rfl
  | cons sc l ih =>
    have h1 : oneRun sc par { c with part := p } = oneRun sc par c := rfl
    unfold runMulti
    rw [h1, ih]

/-- The best stability of the runs, if there is one. -/
def bestOf (r : Except Verif.Partition.Err (List (Nat × List (Finset Nat) × ℚ))) : Option ℚ :=
  match r with
  | .ok rs => (rs.map fun x => x.2.2).max?
  | .error _ => none

/-- **C74, violated.** An object that was built with a partition of stability 4: all the runs
start from single nodes instead, none moves a node, and the best stability reported is 2. -/
theorem C74_given_partition_lost : ∃ (c : Clu ℚ) (cl : List (Finset Nat)), FreshFrom cl c ∧
    stability c.S c.part = 4 ∧ ∃ par sc, bestOf (runMulti par c [sc, sc]) = some 2 := by
  refine ⟨{ n := 2, T := fun i j => if i = j then 1 else 0, S := fun _ _ => 1,
            part := removeEmpty ⟨2, [{0, 1}], dictOf [{0, 1}]⟩ }, [{0, 1}], ?_, by decide +kernel,
    exPar, exSched, by decide +kernel⟩
  unfold FreshFrom mkClu
  rw [if_pos (by decide +kernel), mk'_clusterList]

/-- **C73.** Louvain clustering of an undirected network with the covariance of one step: every
run ends with a partition, reports its modularity, and this is not below the modularity of the
partition into single nodes unless all the entries of the covariance are negligible. -/
theorem C73_louvain (E : Mat K → Mat K) (eig : Mat K → EigPair K) (n : Nat) (A : Mat K)
    (hA : Weighted n A) (hs : Symm n A) (hm : twoM n A ≠ 0) (t : Time K) (d l : Bool)
    (ho : OneStep t d l) (par : Params K) (scs : List Sched) :
    ∃ c rs, staticClustering E eig n A t d l false = .ok c ∧ runMulti par c scs = .ok rs ∧
      rs.length = scs.length ∧ ∀ r ∈ rs, IsPartition n r.2.1 ∧ r.2.2 = modularity n A r.2.1 ∧
        modularity n A (singletons n) - 2 / 10 ^ 6 ≤ modularity n A r.2.1 := by
  have hn : 0 < n := by
    rcases Nat.eq_zero_or_pos n with h | h
    · subst h; exact absurd (by simp [twoM]) hm
    · exact h
  have ht := transition_one E (n := n) (A := A) ho
  have hrows : RowsOne n (transition E n A t d l) := by
    intro i hi
    rw [← (tstat_stoch hA i hi).2]
    exact Finset.sum_congr rfl fun j hj => ht i hi j (mem_range.1 hj)
  obtain ⟨c, h1, h2, h3⟩ := C73_modularity E eig n A hA hs hm t d l ho
  have hcT : rowsOk c.n c.T ∧ ∀ i < c.n, rowSum c.n c.T i = 1 := by
    unfold staticClustering at h1
    rw [undirected_stationary eig hm] at h1
    simp only at h1
    obtain ⟨c', g1, _, g3, g4, _⟩ := mkClu_ok (n := n) (T := transition E n A t d l)
      (S := Verif.Autocov.computeS (fun i => strength n A i / twoM n A)
        (fun i => strength n A i / twoM n A) (transition E n A t d l) none) (rowsOk_of_one hrows)
    simp only [g1, Except.ok.injEq] at h1
    rw [← h1, g3, g4]
    exact ⟨rowsOk_of_one hrows, fun i hi => hrows i hi⟩
  obtain ⟨rs, g1, g2, g3⟩ := C74_results par c (by rw [h2]; exact hn) hcT.1
    (fun i hi => by rw [hcT.2 i hi]; exact one_pos) scs
  have hmod : ∀ cl, IsPartition n cl → pairSum n c.S cl = modularity n A cl := by
    intro cl hcl
    have hc : Consistent (⟨n, cl, dictOf cl⟩ : Part) :=
      ⟨hcl, fun v i => dictOf_spec cl (hcl.disj) v i⟩
    have := h3 ⟨n, cl, dictOf cl⟩ hc rfl
    rw [C26_stability_is_pair_sum c.S _ hc, pairStability_eq (n := n) rfl] at this
    exact this
  refine ⟨c, rs, h1, g1, g2, fun r hr => ?_⟩
  obtain ⟨_, a2, a3, a4, _⟩ := g3 r hr
  rw [h2] at a2 a3 a4
  have hsing : IsPartition n (singletons n) := by
    obtain ⟨q, _, q1, q2, q3⟩ := mk'_none n false
    rw [← q3, ← q2]
    exact q1.1
  rw [hmod _ a2] at a3
  rw [hmod _ hsing, a3] at a4
  exact ⟨a2, a3, a4⟩

/-- Non-vacuity for C73: an edge is an undirected network with weight, its walk has the
eigenvalue one. -/
example : Weighted 2 pair ∧ Symm 2 pair ∧ twoM 2 pair ≠ 0 ∧ StronglyConnected 2 pair ∧
    IsEig 2 (fun i j => walk 2 pair j i) { wr := 1, wi := 0, vr := fun _ => 1, vi := fun _ => 0 } ∧
    OneStep (.int 1 : Time ℚ) true false := by
  refine ⟨pair_weighted, by unfold Symm; decide +kernel, by decide +kernel, pair_connected,
    ⟨by decide +kernel, by decide +kernel, 0, by decide, Or.inl (by decide +kernel)⟩, .power false⟩

/-- Non-vacuity for C73 over the real numbers. -/
example : Weighted 2 (fun i j => if i + j = 1 then 1 else 0 : Mat ℝ) ∧
    Symm 2 (fun i j => if i + j = 1 then 1 else 0 : Mat ℝ) ∧
    twoM 2 (fun i j => if i + j = 1 then 1 else 0 : Mat ℝ) ≠ 0 := by
  refine ⟨fun i _ j _ => by dsimp only; split <;> norm_num, fun i _ j _ => by
    dsimp only; rw [Nat.add_comm], ?_⟩
  simp [twoM, Finset.sum_range_succ]

/-- Non-vacuity for C74: the example object of the Louvain clustering, run twice. -/
example : 0 < (exClu [{0, 1}, {2}]).n ∧ rowsOk (exClu [{0, 1}, {2}]).n (exClu [{0, 1}, {2}]).T ∧
    (∀ i < (exClu [{0, 1}, {2}]).n, 0 < rowSum (exClu [{0, 1}, {2}]).n (exClu [{0, 1}, {2}]).T i) ∧
    bestOf (runMulti exPar (exClu [{0, 1}, {2}]) [exSched, exSched]) = some 5 := by
  refine ⟨by decide, by decide +kernel, by decide +kernel, by decide +kernel⟩

end Verif.Static
