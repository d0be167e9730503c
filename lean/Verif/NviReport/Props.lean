import Verif.NviReport.Lemmas
import Mathlib.Data.List.Rotate

/-!
# C111: the reported variation of information
-/

set_option linter.unusedSectionVars false

namespace Verif.NviReport

open Verif.Comps Verif.Autocov Verif.SparseLouvain
open Verif.Info hiding pairs
open Verif.Scripts.Cluster (Clusters IsMean Choice)
open Verif.Louvain (Sched Params exSched exPar exListing)

variable {K : Type} [Field K] [LinearOrder K] [IsStrictOrderedRing K]

theorem repetition_whole {initP1 : Bool} {A : Autocov K} (f : Fit A) {label : Nat → Nat} {sc : Nat → Sched}
    {par : Params K} {cl : Clusters} (h : repetition .whole initP1 A label sc par = .ok cl) :
    ClusteringOf (Finset.range A.PT.nrows) cl := by
  have hmk : ∃ c, mkS A .none = .ok c ∧ c.A = A ∧ Fresh c := by
    unfold mkS
    match hm : Verif.Partition.mk' A.PT.nrows .none false with
    | .error e => simp [Verif.Partition.mk'] at hm
    | .ok p =>
      refine ⟨⟨A, p⟩, rfl, rfl, ?_⟩
      unfold Fresh mkS
      simp only [hm]
  obtain ⟨c, hc, rfl, hf⟩ := hmk
  unfold repetition runWhole at h
  simp only at h
  rw [hc] at h
  simp only at h
  have key : ∃ k p, sFindLouvain (sc 0) par c = .ok (k, p) ∧ Verif.Partition.Consistent p ∧ p.numNodes = c.A.PT.nrows ∧
      ∀ cl ∈ p.clusters, cl.Nonempty := by
    cases hz : c.A.isAllZeros with
    | true =>
      unfold sFindLouvain
      rw [hz, Verif.Louvain.mk'_clusterList]
      refine ⟨0, _, rfl, Verif.Partition.consistent_removeEmpty (Verif.Louvain.isPartition_full _), rfl, ?_⟩
      intro x hx
      unfold Verif.Partition.removeEmpty at hx
      simp only [List.mem_filter] at hx
      simpa using hx.2
    | false =>
      obtain ⟨k, p, h1, h2, h3, h4, _⟩ := C69_no_worse_partial (sc 0) par c f hf hz
      exact ⟨k, p, h1, h2, h3, h4⟩
  obtain ⟨k, p, h1, h2, h3, h4⟩ := key
  rw [h1] at h
  simp only [Except.ok.injEq] at h
  subst h
  rw [← h3]
  exact clusteringOf_isPartition h2.1 h4

theorem repetition_largest {initP1 : Bool} {A : Autocov K} (hA : Loaded A) {label : Nat → Nat} (hc : Comps A label)
    (hedge : ∃ u v, u ≠ v ∧ Edge A u v)
    (hz : (A.aggregate (idxList A.PT.nrows label (largestLabel A.PT.nrows label))).isAllZeros = false)
    {sc : Nat → Sched} {par : Params K} {cl : Clusters} (h : repetition .largest initP1 A label sc par = .ok cl) :
    ClusteringOf (Finset.range ((compNodes A.PT.nrows label (largestLabel A.PT.nrows label)).length + 1)) cl := by
  obtain ⟨cl', stab, nodes, h1, _, _, _, h2, h3, _⟩ := C70_largest_partial (sc 0) par A hA label hc hedge hz
  unfold repetition at h
  simp only at h
  have hn : nodes = compNodes A.PT.nrows label (largestLabel A.PT.nrows label) := by
    unfold runLargest at h1
    simp only at h1
    split at h1
    · cases h1
    · split at h1
      · cases h1
      · simp only [Except.ok.injEq, Prod.mk.injEq] at h1
        exact h1.2.2.symm
  rw [h1] at h
  simp only [Except.ok.injEq] at h
  subst h
  rw [← hn]
  exact clusteringOf_isPartition h2 h3

theorem repetition_separate {initP1 : Bool} {A : Autocov K} (hA : Loaded A) {label : Nat → Nat} (hc : Comps A label)
    {U : Finset Nat} (hU : ∀ v, v ∈ U ↔ v < A.PT.nrows ∧ ¬ Dropped initP1 A v)
    {sc : Nat → Sched} {par : Params K} {cl : Clusters} (h : repetition .separate initP1 A label sc par = .ok cl) :
    ClusteringOf U cl := by
  obtain ⟨cl', stab, h1, h2, _⟩ := C70_components_partition sc par initP1 A hA label hc
  unfold repetition at h
  simp only at h
  rw [h1] at h
  simp only [Except.ok.injEq] at h
  subst h
  obtain ⟨h3, h4, h5⟩ := h2
  exact ⟨⟨h4, fun v => by rw [hU]; exact h3 v⟩, fun h0 => Finset.not_nonempty_empty (h5 _ h0)⟩

/-- **C111, partial.** Clustering the whole network: `nvarinf` is the mean, over the requested number
of different pairs of repetitions, of the normalised variation of information of their clusterings
of the nodes. -/
theorem C111_whole_partial (initP1 : Bool) (A : Autocov K) (f : Fit A) (label : Nat → Nat) (lists : List Clusters)
    (hl : ∀ cl ∈ lists, ∃ sc par, repetition .whole initP1 A label sc par = .ok cl) (samples : Nat) (choice : List Nat)
    (hch : Choice (lists.length * (lists.length - 1) / 2) samples choice) :
    ∃ v, temporalNvi .whole A label choice lists = .ok v ∧
      MeanOver (normVar (Finset.range A.PT.nrows)) samples lists v := by
  apply mean_over hch
  intro c hc d hd
  obtain ⟨_, _, h1⟩ := hl c hc
  obtain ⟨_, _, h2⟩ := hl d hd
  have h1 := repetition_whole f h1
  have h2 := repetition_whole f h2
  exact nviLists_value (by rw [Finset.nonempty_range_iff]; exact f.pos.ne') h1.1 h2.1 h1.2 h2.2
    (.inr (by rw [Finset.card_range]; rfl))

/-- **C111, partial.** With `only_largest_comp`: the mean of the normalised variation of information of
clusterings of the largest component and one more node, which stands for all others. -/
theorem C111_largest_partial (initP1 : Bool) (A : Autocov K) (hA : Loaded A) (label : Nat → Nat) (hc : Comps A label)
    (hedge : ∃ u v, u ≠ v ∧ Edge A u v)
    (hz : (A.aggregate (idxList A.PT.nrows label (largestLabel A.PT.nrows label))).isAllZeros = false)
    (lists : List Clusters) (hl : ∀ cl ∈ lists, ∃ sc par, repetition .largest initP1 A label sc par = .ok cl)
    (samples : Nat) (choice : List Nat) (hch : Choice (lists.length * (lists.length - 1) / 2) samples choice) :
    ∃ v, temporalNvi .largest A label choice lists = .ok v ∧
      MeanOver (normVar (Finset.range ((compNodes A.PT.nrows label (largestLabel A.PT.nrows label)).length + 1)))
        samples lists v := by
  apply mean_over hch
  intro c hc' d hd'
  obtain ⟨_, _, h1⟩ := hl c hc'
  obtain ⟨_, _, h2⟩ := hl d hd'
  have h1 := repetition_largest hA hc hedge hz h1
  have h2 := repetition_largest hA hc hedge hz h2
  refine nviLists_value (by rw [Finset.nonempty_range_iff]; omega) h1.1 h2.1 h1.2 h2.2 (.inr ?_)
  rw [Finset.card_range, rowsT_largest hA]

/-- **C111** with `separate_comps`: if `U` are the nodes that are clustered, at least two, then `nvarinf` is
the mean of the normalised variation of information on `U`, but scaled by `|U| log |U| / (n log n)`, with
`n` the number of all nodes, those left out included. -/
theorem C111_separate_partial (initP1 : Bool) (A : Autocov K) (hA : Loaded A) (label : Nat → Nat) (hc : Comps A label)
    (U : Finset Nat) (hU : ∀ v, v ∈ U ↔ v < A.PT.nrows ∧ ¬ Dropped initP1 A v) (h2 : 2 ≤ U.card)
    (lists : List Clusters) (hl : ∀ cl ∈ lists, ∃ sc par, repetition .separate initP1 A label sc par = .ok cl)
    (samples : Nat) (choice : List Nat) (hch : Choice (lists.length * (lists.length - 1) / 2) samples choice) :
    ∃ v, temporalNvi .separate A label choice lists = .ok v ∧
      MeanOver (fun c d => normVar U c d * ((U.card * Real.logb 2 U.card) / (A.PT.nrows * Real.logb 2 A.PT.nrows)))
        samples lists v := by
  apply mean_over hch
  intro c hc' d hd'
  obtain ⟨_, _, k1⟩ := hl c hc'
  obtain ⟨_, _, k2⟩ := hl d hd'
  have k1 := repetition_separate hA hc hU k1
  have k2 := repetition_separate hA hc hU k2
  have hsub : U ⊆ Finset.range A.PT.nrows := fun v hv => Finset.mem_range.2 ((hU v).1 hv).1
  have hle : U.card ≤ A.PT.nrows := by simpa using Finset.card_le_card hsub
  rw [nviLists_any h2 k1 k2]
  show Except.ok (if c.length = A.PT.nrows ∧ d.length = A.PT.nrows then 0 else normVar U c d *
    ((U.card * Real.logb 2 U.card) / (A.PT.nrows * Real.logb 2 A.PT.nrows))) = Except.ok _
  congr 1
  split
  · next hh =>
    have hcl : ∀ {es : Clusters}, ClusteringOf U es → es.length ≤ U.card := by
      intro es he
      rw [← card_sum he.1]
      have : (es.map fun _ => 1).sum ≤ (es.map Finset.card).sum := by
        apply List.sum_le_sum
        intro x hx
        exact Finset.card_pos.2 (Finset.nonempty_iff_ne_empty.2 fun h0 => he.2 (h0 ▸ hx))
      simpa using this
    have hu : U.card = A.PT.nrows := le_antisymm hle (by rw [← hh.1]; exact hcl k1)
    have h0 : normVar U c d = 0 := by
      rw [normVar_same h2 k1.1 k2.1, sameClusters_iff k1.1 k2.1]
      intro x hx
      rw [singleton_clusters k1.1 (hh.1.trans hu.symm) k1.2 hx, singleton_clusters k2.1 (hh.2.trans hu.symm) k2.2 hx]
    rw [h0, zero_mul]
  · rfl

theorem logb_mul_lt {a b : Nat} (h : 2 ≤ a) (hab : a < b) : (a : ℝ) * Real.logb 2 a < b * Real.logb 2 b := by
  have h1 : (a : ℝ) < b := by exact_mod_cast hab
  have h2 : (2 : ℝ) ≤ a := by exact_mod_cast h
  have h3 : Real.logb 2 a < Real.logb 2 b := Real.logb_lt_logb (by norm_num) (by linarith) h1
  have h4 : 0 < Real.logb 2 (a : ℝ) := Real.logb_pos (by norm_num) (by linarith)
  have h5 : (a : ℝ) * Real.logb 2 a ≤ a * Real.logb 2 b := by nlinarith
  have h6 : (a : ℝ) * Real.logb 2 b < b * Real.logb 2 b := by nlinarith
  linarith

/-- **C111 is violated with `separate_comps` and initial probabilities**: if a node is left out, two
repetitions with different clusterings are reported to be closer than they are. -/
theorem C111_dropped_violated (A : Autocov K) (hA : Loaded A) (label : Nat → Nat) (hc : Comps A label)
    (U : Finset Nat) (hU : ∀ v, v ∈ U ↔ v < A.PT.nrows ∧ ¬ Dropped true A v) (h2 : 2 ≤ U.card)
    (hd : ∃ v < A.PT.nrows, Dropped true A v) (c d : Clusters)
    (h1 : ∃ sc par, repetition .separate true A label sc par = .ok c)
    (k1 : ∃ sc par, repetition .separate true A label sc par = .ok d) (hne : ¬ SameClusters c d) :
    ∃ v, temporalNvi .separate A label [0] [c, d] = .ok (some v) ∧ v < normVar U c d := by
  obtain ⟨_, _, h1⟩ := h1
  obtain ⟨_, _, k1⟩ := k1
  have h1 := repetition_separate hA hc hU h1
  have k1 := repetition_separate hA hc hU k1
  have hlt : U.card < A.PT.nrows := by
    obtain ⟨w, hw, hwd⟩ := hd
    have : U ⊂ Finset.range A.PT.nrows := by
      rw [Finset.ssubset_iff_of_subset fun v hv => Finset.mem_range.2 ((hU v).1 hv).1]
      exact ⟨w, Finset.mem_range.2 hw, fun h => ((hU w).1 h).2 hwd⟩
    simpa using Finset.card_lt_card this
  have hpos : 0 < normVar U c d := lt_of_le_of_ne (normVar_nonneg h2 h1.1 k1.1) fun h0 =>
    hne ((normVar_same h2 h1.1 k1.1).1 h0.symm)
  refine ⟨_, mean_two (f := fun c d => if c.length = A.PT.nrows ∧ d.length = A.PT.nrows then 0
    else normVar U c d * ((U.card * Real.logb 2 U.card) / (A.PT.nrows * Real.logb 2 A.PT.nrows)))
    (nviLists_any h2 h1 k1 _), ?_⟩
  split
  · exact hpos
  · have h3 := logb_mul_lt h2 hlt
    have h4 := logb_card_pos (show 2 ≤ A.PT.nrows by omega)
    have h5 := (div_lt_one h4).2 h3
    nlinarith

/-- **C111, partial.** The static network, unless `only_largest_comp` is given: `nvarinf_static` is the mean of
the normalised variation of information of the static clusterings, whatever they are. -/
theorem C111_static_partial (mode : Mode) (hm : mode ≠ .largest) (A : Autocov K) (hn : 0 < A.PT.nrows) (label : Nat → Nat)
    (lists : List Clusters) (hl : ∀ cl ∈ lists, ClusteringOf (Finset.range A.PT.nrows) cl)
    (samples : Nat) (choice : List Nat) (hch : Choice (lists.length * (lists.length - 1) / 2) samples choice) :
    ∃ v, staticNvi mode A label choice lists = .ok v ∧
      MeanOver (normVar (Finset.range A.PT.nrows)) samples lists v := by
  apply mean_over hch
  intro c hc d hd
  refine nviLists_value (by rw [Finset.nonempty_range_iff]; omega) (hl c hc).1 (hl d hd).1 (hl c hc).2 (hl d hd).2
    (.inr ?_)
  rw [Finset.card_range]
  cases mode with
  | whole => rfl
  | largest => exact absurd rfl hm
  | separate => rfl

/-- The clustering with each node alone, and the one with all nodes together. -/
def alone (n : Nat) : Clusters := (List.range n).map fun v => {v}

def together (n : Nat) : Clusters := [Finset.range n]

theorem clusteringOf_alone (n : Nat) : ClusteringOf (Finset.range n) (alone n) := by
  refine ⟨⟨?_, ?_⟩, ?_⟩
  · unfold alone
    rw [List.pairwise_map]
    exact List.nodup_range.imp fun h => by simpa using h
  · intro x; simp [alone]
  · simp [alone]

theorem clusteringOf_together {n : Nat} (hn : 0 < n) : ClusteringOf (Finset.range n) (together n) := by
  refine ⟨⟨by simp [together], by simp [together]⟩, ?_⟩
  simp only [together, List.mem_singleton]
  intro h
  have := congrArg Finset.card h
  simp at this
  omega

theorem normVar_extremes {n : Nat} (hn : 2 ≤ n) : normVar (Finset.range n) (alone n) (together n) = 1 := by
  have ha := (clusteringOf_alone n).1
  have ht := (clusteringOf_together (show 0 < n by omega)).1
  have h1 : ∀ x ∈ Finset.range n, cell (alone n) x = {x} := fun x hx =>
    cell_eq ha.1 (by simpa [alone] using hx) (by simp)
  have h2 : ∀ x ∈ Finset.range n, cell (together n) x = Finset.range n := fun x hx =>
    cell_eq ht.1 (by simp [together]) hx
  rw [normVar_cells ha ht]
  have e1 : Verif.Info.cond (Finset.range n) (cell (alone n)) (cell (together n)) = n * Real.logb 2 n := by
    unfold Verif.Info.cond
    rw [Finset.sum_congr rfl (g := fun _ => Real.logb 2 n)]
    · simp
    · intro x hx
      rw [h1 x hx, h2 x hx, Finset.inter_eq_left.2 (Finset.singleton_subset_iff.2 hx)]
      simp
  have e2 : Verif.Info.cond (Finset.range n) (cell (together n)) (cell (alone n)) = 0 := by
    unfold Verif.Info.cond
    apply Finset.sum_eq_zero
    intro x hx
    rw [h1 x hx, h2 x hx, Finset.inter_eq_right.2 (Finset.singleton_subset_iff.2 hx)]
    simp
  rw [e1, e2, add_zero, Finset.card_range]
  exact div_self (logb_card_pos hn).ne'

/-- **C111, partial.** The static network with `only_largest_comp`: the average is right if exactly one node is
outside the largest component. -/
theorem C111_static_one_outside_partial (A : Autocov K) (hA : Loaded A) (label : Nat → Nat) (hc : Comps A label)
    (s : Nat) (hs : LargestSize A s) (h1 : s + 1 = A.PT.nrows)
    (lists : List Clusters) (hl : ∀ cl ∈ lists, ClusteringOf (Finset.range A.PT.nrows) cl)
    (samples : Nat) (choice : List Nat) (hch : Choice (lists.length * (lists.length - 1) / 2) samples choice) :
    ∃ v, staticNvi .largest A label choice lists = .ok v ∧
      MeanOver (normVar (Finset.range A.PT.nrows)) samples lists v := by
  apply mean_over hch
  intro c hc' d hd
  refine nviLists_value (by rw [Finset.nonempty_range_iff]; omega) (hl c hc').1 (hl d hd).1 (hl c hc').2 (hl d hd).2
    (.inr ?_)
  rw [Finset.card_range, rowsT_size hA hc hs, h1]

/-- **C111 is violated for the static network with `only_largest_comp`**: if the number of nodes outside the
largest component, of size `s`, is not one, then a wrong number is reported for every two
repetitions with different clusterings of the static network.  It is zero, as if they were the
same, if both have `s + 1` clusters.  Otherwise it is the right one times `n log n / ((s + 1) log (s + 1))`. -/
theorem C111_static_violated (A : Autocov K) (hA : Loaded A) (label : Nat → Nat) (hc : Comps A label)
    (s : Nat) (hs : LargestSize A s) (h1 : s + 1 ≠ A.PT.nrows) (c d : Clusters)
    (h : ClusteringOf (Finset.range A.PT.nrows) c) (k : ClusteringOf (Finset.range A.PT.nrows) d)
    (hne : ¬ SameClusters c d) :
    ∃ v, staticNvi .largest A label [0] [c, d] = .ok (some v) ∧ v ≠ normVar (Finset.range A.PT.nrows) c d ∧
      (c.length = s + 1 → d.length = s + 1 → v = 0) ∧
      (¬ (c.length = s + 1 ∧ d.length = s + 1) → v = normVar (Finset.range A.PT.nrows) c d *
        ((A.PT.nrows * Real.logb 2 A.PT.nrows) / ((s + 1 : Nat) * Real.logb 2 (s + 1 : Nat)))) := by
  have hn : 2 ≤ A.PT.nrows := by
    by_contra hlt
    have hpos := hA.fit.pos
    apply hne
    rw [sameClusters_iff h.1 k.1]
    intro x hx
    have hU : (Finset.range A.PT.nrows) = {x} := by
      rw [show A.PT.nrows = 1 by omega] at hx ⊢
      simp at hx
      subst hx
      rfl
    have : ∀ {es : Clusters}, Clustering (Finset.range A.PT.nrows) es → cell es x = {x} := by
      intro es he
      apply Finset.Subset.antisymm
      · rw [← hU]; exact he.cells.sub x hx
      · exact Finset.singleton_subset_iff.2 (he.cells.mem x hx)
    rw [this h.1, this k.1]
  have hcard : 2 ≤ (Finset.range A.PT.nrows).card := by simpa using hn
  have hpos : 0 < normVar (Finset.range A.PT.nrows) c d :=
    lt_of_le_of_ne (normVar_nonneg hcard h.1 k.1) fun h0 => hne ((normVar_same hcard h.1 k.1).1 h0.symm)
  have hs1 := largestSize_pos hs
  refine ⟨_, mean_two (f := fun c d => if c.length = s + 1 ∧ d.length = s + 1 then 0
    else normVar (Finset.range A.PT.nrows) c d *
      ((A.PT.nrows * Real.logb 2 A.PT.nrows) / ((s + 1 : Nat) * Real.logb 2 (s + 1 : Nat)))) (by
      rw [rowsT_size hA hc hs, nviLists_any hcard h k, Finset.card_range]), ?_, ?_, ?_⟩
  · split
    · exact hpos.ne
    · intro he
      have h2 : (A.PT.nrows : ℝ) * Real.logb 2 A.PT.nrows / ((s + 1 : Nat) * Real.logb 2 (s + 1 : Nat)) = 1 := by
        have := mul_left_cancel₀ hpos.ne' (he.trans (mul_one _).symm)
        exact this
      have h3 := logb_card_pos (show 2 ≤ s + 1 by omega)
      rw [div_eq_one_iff_eq h3.ne'] at h2
      rcases Nat.lt_or_gt_of_ne h1 with hlt | hlt
      · exact (logb_mul_lt (by omega) hlt).ne h2.symm
      · exact (logb_mul_lt hn hlt).ne h2
  · intro ha hb
    rw [if_pos ⟨ha, hb⟩]
  · intro hnot
    rw [if_neg hnot]

/-- **C111 is violated**: with at least two nodes outside the largest component, the reported number can be
above one, the largest value that a normalised variation of information can have. -/
theorem C111_above_one_violated (A : Autocov K) (hA : Loaded A) (label : Nat → Nat) (hc : Comps A label)
    (s : Nat) (hs : LargestSize A s) (h1 : s + 1 < A.PT.nrows) :
    ∃ c d, ClusteringOf (Finset.range A.PT.nrows) c ∧ ClusteringOf (Finset.range A.PT.nrows) d ∧
      ∃ v, staticNvi .largest A label [0] [c, d] = .ok (some v) ∧ 1 < v := by
  have hs1 := largestSize_pos hs
  have hn : 2 ≤ A.PT.nrows := by omega
  refine ⟨alone A.PT.nrows, together A.PT.nrows, clusteringOf_alone _, clusteringOf_together (by omega), ?_⟩
  have hne : ¬ SameClusters (alone A.PT.nrows) (together A.PT.nrows) := by
    rw [← normVar_same (by simpa using hn) (clusteringOf_alone _).1 (clusteringOf_together (by omega)).1,
      normVar_extremes hn]
    norm_num
  obtain ⟨v, e1, _, _, e2⟩ := C111_static_violated A hA label hc s hs h1.ne _ _ (clusteringOf_alone _)
    (clusteringOf_together (by omega)) hne
  refine ⟨v, e1, ?_⟩
  rw [e2 (by intro h; have := h.1; simp [alone] at this; omega), normVar_extremes hn, one_mul]
  exact (one_lt_div (logb_card_pos (by omega))).2 (logb_mul_lt (by omega) h1)

/-! ## Examples -/

/-- The covariance of `Verif.Comps` with components `{0, 2}`, `{1, 3}` and `{4}`: the largest has two of the
five nodes, so the conditions of the violations hold. -/
theorem exLargest : LargestSize exCov 2 := by
  have hc := exComps
  have h5 : exCov.PT.nrows = 5 := by decide +kernel
  have hcomp : ∀ v < 5, ∀ u, u < 5 ∧ Relation.EqvGen (Edge exCov) u v ↔ u ∈ (Finset.range 5).filter fun u => exLabel u = exLabel v := by
    intro v hv u
    rw [Finset.mem_filter, Finset.mem_range]
    constructor
    · rintro ⟨h1, h2⟩; exact ⟨h1, (hc.same u (h5 ▸ h1) v (h5 ▸ hv)).2 h2⟩
    · rintro ⟨h1, h2⟩; exact ⟨h1, (hc.same u (h5 ▸ h1) v (h5 ▸ hv)).1 h2⟩
  constructor
  · refine ⟨0, by rw [h5]; omega, (Finset.range 5).filter fun u => exLabel u = exLabel 0, ?_, by decide +kernel⟩
    intro u
    rw [h5]
    exact (hcomp 0 (by omega) u).symm
  · rw [h5]
    intro v hv F hF
    have : F ⊆ (Finset.range 5).filter fun u => exLabel u = exLabel v := fun u hu => (hcomp v hv u).1 (hF u hu)
    refine le_trans (Finset.card_le_card this) ?_
    exact (by decide +kernel : ∀ v < 5, ((Finset.range 5).filter fun u => exLabel u = exLabel v).card ≤ 2) v hv

/-- Non-vacuity of the violations for the static network: five nodes, two in the largest component, and two
different clusterings with three clusters each, reported as equal. -/
example : Loaded exCov ∧ Comps exCov exLabel ∧ LargestSize exCov 2 ∧ 2 + 1 < exCov.PT.nrows ∧
    ClusteringOf (Finset.range exCov.PT.nrows) [{0, 1, 2}, {3}, {4}] ∧
    ClusteringOf (Finset.range exCov.PT.nrows) [{0}, {1}, {2, 3, 4}] ∧
    ¬ SameClusters [{0, 1, 2}, {3}, {4}] [{0}, {1}, {2, 3, 4}] := by
  refine ⟨exLoaded, exComps, exLargest, by decide +kernel, ?_, ?_, ?_⟩
  · rw [show exCov.PT.nrows = 5 by decide +kernel]
    refine ⟨⟨by decide +kernel, fun x => ?_⟩, by decide +kernel⟩
    simp only [Finset.mem_range, List.mem_cons, List.not_mem_nil, or_false, exists_eq_or_imp, exists_eq_left, Finset.mem_insert,
      Finset.mem_singleton]
    omega
  · rw [show exCov.PT.nrows = 5 by decide +kernel]
    refine ⟨⟨by decide +kernel, fun x => ?_⟩, by decide +kernel⟩
    simp only [Finset.mem_range, List.mem_cons, List.not_mem_nil, or_false, exists_eq_or_imp, exists_eq_left, Finset.mem_insert,
      Finset.mem_singleton]
    omega
  · intro h
    have := (h {0} (by simp)).2 (by simp)
    revert this
    decide +kernel

/-- Non-vacuity for `separate_comps`: node 4 is left out, the other four are clustered, and the conditions for
the largest component hold as well. -/
example : (∀ v, v ∈ Finset.range 4 ↔ v < exCov.PT.nrows ∧ ¬ Dropped true exCov v) ∧
    (∃ v < exCov.PT.nrows, Dropped true exCov v) ∧ (∃ u v, u ≠ v ∧ Edge exCov u v) ∧
    (exCov.aggregate (idxList exCov.PT.nrows exLabel (largestLabel exCov.PT.nrows exLabel))).isAllZeros = false ∧
    (repetition .separate true exCov exLabel (fun _ => exSched) exPar).toOption.isSome ∧
    (repetition .largest true exCov exLabel (fun _ => exSched) exPar).toOption.isSome := by
  have h5 : exCov.PT.nrows = 5 := by decide +kernel
  have hd : Dropped true exCov 4 := by
    refine ⟨rfl, by decide +kernel, ?_⟩
    intro u hu hne he
    rw [h5] at hu
    have := (exComps.same u (h5 ▸ hu) 4 (by rw [h5]; omega)).2 he
    have := (by decide +kernel : ∀ u < 5, u ≠ 4 → exLabel u ≠ exLabel 4) u hu hne
    contradiction
  have hk : ∀ v < 4, ¬ Dropped true exCov v := by
    intro v hv h
    have := (by decide +kernel : ∀ v < 4, 0 < p1At exCov v) v hv
    exact h.2.1 this
  refine ⟨fun v => ?_, ⟨4, by rw [h5]; omega, hd⟩, ⟨0, 2, by decide, by decide, by decide, by decide +kernel⟩,
    by decide +kernel, by decide +kernel, by decide +kernel⟩
  rw [Finset.mem_range, h5]
  constructor
  · intro h; exact ⟨by omega, hk v h⟩
  · rintro ⟨h1, h2⟩
    by_contra hv
    rw [show v = 4 by omega] at h2
    exact h2 hd

/-- Four nodes on a cycle and node 4 without probability. -/
def cyPT : Verif.Csr.Csr ℚ := Verif.Csr.ofRows 5 [[(0, 1 / 12), (1, 1 / 12), (3, 1 / 12)],
  [(0, 1 / 12), (1, 1 / 12), (2, 1 / 12)], [(1, 1 / 12), (2, 1 / 12), (3, 1 / 12)],
  [(0, 1 / 12), (2, 1 / 12), (3, 1 / 12)], []]

def cyCov : Autocov ℚ := mkAutocov cyPT (.vectors exProb exProb) true

def cyLabel (i : Nat) : Nat := if i < 4 then 0 else 1

/-- A schedule that starts from node `k`. -/
def rotSched (k : Nat) : Sched where
  order := fun _ _ n => (List.range n).rotate k
  listing := fun _ _ _ s => exListing s
  order_perm := fun _ _ n => List.rotate_perm _ _
  mem_listing := exSched.mem_listing

theorem cyLoaded : Loaded cyCov := by
  have hwf : cyPT.WF := Verif.Csr.wf_ofRows _ _ (by decide +kernel)
  have hg : Good cyCov := good_mk _ _ _ hwf (by decide) (by unfold Verif.Csr.Csr.NoRepeats; decide +kernel)
    (fun _ i j hi hj => (by decide +kernel : ∀ i < 5, ∀ j < 5, cyPT.val i j = cyPT.val j i) i hi j hj)
  exact ⟨⟨hg, fun _ i j hi hj => (by decide +kernel : ∀ i < 5, ∀ j < 5,
      cyCov.PT.val i j = cyCov.PT.val j i) i hi j hj, ⟨by decide +kernel, by decide +kernel⟩,
      ⟨by decide +kernel, by decide +kernel⟩, by decide +kernel⟩, rfl⟩

theorem cyComps : Comps cyCov cyLabel := by
  have h5 : cyCov.PT.nrows = 5 := by decide +kernel
  have h1 : ∀ a < 5, ∀ b < 5, 0 < cyCov.PT.val a b → cyLabel a = cyLabel b := by decide +kernel
  have h2 : ∀ a < 5, ∀ b < 5, cyLabel a = cyLabel b → a = b ∨ ∃ c < 5, 0 < cyCov.PT.val a c ∧ 0 < cyCov.PT.val c b := by
    decide +kernel
  have h3 : ∀ a b, Relation.EqvGen (Edge cyCov) a b → cyLabel a = cyLabel b := by
    intro a b h
    induction h with
    | rel a b h => exact h1 a (h5 ▸ h.1) b (h5 ▸ h.2.1) h.2.2
    | refl a => rfl
    | symm a b _ ih => exact ih.symm
    | trans a b c _ _ ih1 ih2 => exact ih1.trans ih2
  refine ⟨by decide +kernel, ?_⟩
  intro i hi j hj
  refine ⟨fun h => ?_, h3 i j⟩
  rcases h2 i (h5 ▸ hi) j (h5 ▸ hj) h with rfl | ⟨c, hc, hp, hq⟩
  · exact Relation.EqvGen.refl i
  · have hc' : c < cyCov.PT.nrows := by rw [h5]; exact hc
    exact .trans _ c _ (.rel _ _ ⟨hi, hc', hp⟩) (.rel _ _ ⟨hc', hj, hq⟩)

/-- Non-vacuity of `C111_dropped_violated`: two repetitions on the cycle end with different clusterings. -/
example : Loaded cyCov ∧ Comps cyCov cyLabel ∧
    (∀ v, v ∈ Finset.range 4 ↔ v < cyCov.PT.nrows ∧ ¬ Dropped true cyCov v) ∧
    (∃ v < cyCov.PT.nrows, Dropped true cyCov v) ∧
    ∃ c d, repetition .separate true cyCov cyLabel (fun _ => rotSched 0) exPar = .ok c ∧
      repetition .separate true cyCov cyLabel (fun _ => rotSched 2) exPar = .ok d ∧ ¬ SameClusters c d := by
  have h5 : cyCov.PT.nrows = 5 := by decide +kernel
  have hd : Dropped true cyCov 4 := by
    refine ⟨rfl, by decide +kernel, ?_⟩
    intro u hu hne he
    have := (cyComps.same u hu 4 (by rw [h5]; omega)).2 he
    rw [h5] at hu
    have := (by decide +kernel : ∀ u < 5, u ≠ 4 → cyLabel u ≠ cyLabel 4) u hu hne
    contradiction
  have hk : ∀ v < 4, ¬ Dropped true cyCov v := by
    intro v hv h
    have := (by decide +kernel : ∀ v < 4, 0 < p1At cyCov v) v hv
    exact h.2.1 this
  have r0 : (repetition .separate true cyCov cyLabel (fun _ => rotSched 0) exPar).toOption = some [{1, 2}, {0, 3}] := by
    decide +kernel
  have r2 : (repetition .separate true cyCov cyLabel (fun _ => rotSched 2) exPar).toOption = some [{2, 3}, {0, 1}] := by
    decide +kernel
  refine ⟨cyLoaded, cyComps, fun v => ?_, ⟨4, by rw [h5]; omega, hd⟩, [{1, 2}, {0, 3}], [{2, 3}, {0, 1}], ?_, ?_, ?_⟩
  · rw [Finset.mem_range, h5]
    constructor
    · intro h; exact ⟨by omega, hk v h⟩
    · rintro ⟨h1, h2⟩
      by_contra hv
      rw [show v = 4 by omega] at h2
      exact h2 hd
  · generalize repetition .separate true cyCov cyLabel (fun _ => rotSched 0) exPar = r at r0
    cases r with
    | error e => simp [Except.toOption] at r0
    | ok c => simp only [Except.toOption, Option.some.injEq] at r0; rw [r0]
  · generalize repetition .separate true cyCov cyLabel (fun _ => rotSched 2) exPar = r at r2
    cases r with
    | error e => simp [Except.toOption] at r2
    | ok c => simp only [Except.toOption, Option.some.injEq] at r2; rw [r2]
  · intro h
    have := (h {1, 2} (by simp)).1 (by simp)
    revert this
    decide +kernel

/-- Non-vacuity of `C111_whole_partial`: the covariance of `Verif.SparseLouvain`. -/
example : Fit exA ∧ ∃ cl, repetition .whole false exA (fun _ => 0) (fun _ => exSched) exPar = .ok cl := by
  have r : (repetition .whole false exA (fun _ => 0) (fun _ => exSched) exPar).toOption.isSome := by decide +kernel
  refine ⟨⟨good_fromT exT (Verif.Csr.wf_ofRows _ _ (by decide +kernel)) (by decide)
      (by unfold Verif.Csr.Csr.NoRepeats; decide +kernel) _ _,
      fun h => absurd h (by decide), ⟨by decide +kernel, by decide +kernel⟩,
      ⟨by decide +kernel, by decide +kernel⟩, by decide +kernel, by decide +kernel⟩, ?_⟩
  match hq : repetition .whole false exA (fun _ => 0) (fun _ => exSched) exPar with
  | .error e => rw [hq] at r; simp [Except.toOption] at r
  | .ok c => exact ⟨c, rfl⟩

end Verif.NviReport
