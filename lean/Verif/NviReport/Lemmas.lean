import Verif.NviReport.Spec
import Verif.Info.Props
import Verif.Info.Lemmas
import Mathlib.Data.List.GetD

/-!
# Lemmas on the reported variation of information
-/

set_option linter.unusedSectionVars false

namespace Verif.NviReport

open Verif.Comps Verif.Autocov
open Verif.Info hiding pairs
open Verif.Scripts.Cluster (Clusters pick pairs mean IsMean Choice)
open Verif.Louvain (Sched Params)

variable {K : Type} [Field K] [LinearOrder K] [IsStrictOrderedRing K]

theorem length_ne_zero {U : Finset Nat} (hU : U.Nonempty) {es : Clusters} (he : Clustering U es) : es.length ≠ 0 := by
  intro h0
  obtain ⟨x, hx⟩ := hU
  obtain ⟨c, hc, _⟩ := (he.2 x).1 hx
  rw [List.length_eq_zero_iff.1 h0] at hc
  simp at hc

theorem logb_card_pos {n : Nat} (h : 2 ≤ n) : 0 < (n : ℝ) * Real.logb 2 n := by
  have h1 : (1 : ℝ) < n := by exact_mod_cast (by omega : 1 < n)
  have := Real.logb_pos (by norm_num : (1 : ℝ) < 2) h1
  positivity

/-- The number of bits of the variation of information. -/
theorem cond_normVar {U : Finset Nat} (hU : 2 ≤ U.card) {cs ds : Clusters} (h : Clustering U cs) (k : Clustering U ds) :
    cond U (cell cs) (cell ds) + cond U (cell ds) (cell cs) = normVar U cs ds * (U.card * Real.logb 2 U.card) := by
  rw [normVar_cells h k, div_mul_cancel₀ _ (logb_card_pos hU).ne']

/-- The value of the function when it is given a number of nodes `N` that need not be the right one. -/
theorem nviLists_any {U : Finset Nat} (hU : 2 ≤ U.card) {cs ds : Clusters} (h : ClusteringOf U cs)
    (k : ClusteringOf U ds) (N : Nat) :
    nviLists cs ds (some N) = .ok (if cs.length = N ∧ ds.length = N then 0
      else normVar U cs ds * ((U.card * Real.logb 2 U.card) / (N * Real.logb 2 N))) := by
  have hne : U.Nonempty := Finset.card_pos.1 (by omega)
  unfold nviLists
  rw [if_neg (by rintro (h0 | h0); exact length_ne_zero hne h.1 h0; exact length_ne_zero hne k.1 h0)]
  simp only [Option.getD_some]
  by_cases hl : cs.length = N ∧ ds.length = N
  · rw [if_pos ⟨hl.1.trans hl.2.symm, hl.2⟩, if_pos hl]
  · rw [if_neg (fun hh => hl ⟨hh.1.trans hh.2, hh.2⟩), if_neg hl,
      if_neg (by rintro (h0 | h0); exact h.2 h0; exact k.2 h0)]
    have hs := h.1.perm (sortClusters_perm cs)
    have ks := k.1.perm (sortClusters_perm ds)
    have hcell : cond U (cell (sortClusters cs)) (cell (sortClusters ds)) +
        cond U (cell (sortClusters ds)) (cell (sortClusters cs)) =
        cond U (cell cs) (cell ds) + cond U (cell ds) (cell cs) := by
      congr 1
      · exact cond_congr (fun x hx => cell_perm h.1 (sortClusters_perm cs) hx)
          fun x hx => cell_perm k.1 (sortClusters_perm ds) hx
      · exact cond_congr (fun x hx => cell_perm k.1 (sortClusters_perm ds) hx)
          fun x hx => cell_perm h.1 (sortClusters_perm cs) hx
    rw [cond_normVar hU h.1 k.1] at hcell
    split
    · next he =>
      rw [he, cond_self ks.cells] at hcell
      have h0 : normVar U cs ds = 0 := by
        have := (logb_card_pos hU).ne'
        have h2 : normVar U cs ds * (U.card * Real.logb 2 U.card) = 0 := by rw [← hcell]; simp
        rcases mul_eq_zero.1 h2 with h3 | h3
        · exact h3
        · exact absurd h3 this
      rw [h0, zero_mul]
    · congr 1
      rw [nviLoop_eq _ _ _ fun c hc => sum_inter ks (hs.subset hc), double_sum hs ks, hcell]
      ring

theorem normVar_same {U : Finset Nat} (hU : 2 ≤ U.card) {cs ds : Clusters} (h : Clustering U cs) (k : Clustering U ds) :
    normVar U cs ds = 0 ↔ SameClusters cs ds := by
  rw [← vi_zero_iff h k, cond_normVar hU h k]
  have := (logb_card_pos hU).ne'
  constructor
  · intro h0; rw [h0, zero_mul]
  · intro h0
    rcases mul_eq_zero.1 h0 with h3 | h3
    · exact h3
    · exact absurd h3 this

theorem normVar_nonneg {U : Finset Nat} (hU : 2 ≤ U.card) {cs ds : Clusters} (h : Clustering U cs) (k : Clustering U ds) :
    0 ≤ normVar U cs ds := by
  rw [normVar_cells h k]
  have := (logb_card_pos hU).le
  have c1 := cond_nonneg h.cells k.cells
  have c2 := cond_nonneg k.cells h.cells
  positivity

theorem values_ok {N : Nat} {f : Clusters → Clusters → ℝ} (l : List (Clusters × Clusters))
    (h : ∀ e ∈ l, nviLists e.1 e.2 (some N) = .ok (f e.1 e.2)) :
    values N l = .ok (l.map fun e => f e.1 e.2) := by
  induction l with
  | nil => rfl
  | cons e l ih =>
    obtain ⟨c, d⟩ := e
    have h1 := h (c, d) List.mem_cons_self
    have h2 := ih fun e he => h e (List.mem_cons_of_mem _ he)
    simp only at h1
    unfold values
    rw [h1, h2]
    rfl

/-- The compared pairs. -/
theorem sampled {lists : List Clusters} {choice : List Nat} {m : Nat}
    (hc : Choice (lists.length * (lists.length - 1) / 2) m choice) :
    ∃ sample : List (Nat × Nat), sample.Nodup ∧ sample.length = m ∧ (∀ p ∈ sample, p.1 < p.2 ∧ p.2 < lists.length) ∧
      pick choice (pairs lists) = sample.map fun p => (lists.getD p.1 [], lists.getD p.2 []) := by
  have hd : lists = (List.range lists.length).map fun i => lists.getD i [] := by
    apply List.ext_getElem
    · simp
    · intro i h1 h2
      simp [h1]
  have hs := Verif.Scripts.Cluster.pairs_sorted (List.pairwise_lt_range (n := lists.length))
  refine ⟨pick choice (pairs (List.range lists.length)), (Verif.Scripts.Cluster.pick_sublist _ _).nodup hs.1, ?_, ?_, ?_⟩
  · rw [Verif.Scripts.Cluster.pick_length hc.nodup, hc.length]
    intro i hi
    rw [Verif.Scripts.Cluster.pairs_length, List.length_range]
    exact hc.below i hi
  · intro p hp
    obtain ⟨h1, -, h3⟩ := hs.2 p ((Verif.Scripts.Cluster.pick_sublist _ _).subset hp)
    exact ⟨h1, List.mem_range.1 h3⟩
  · conv_lhs => rw [hd]
    rw [Verif.Scripts.Cluster.pairs_map, Verif.Scripts.Cluster.pick_map]
    rfl

/-- The average over the compared pairs. -/
theorem mean_over {N m : Nat} {f : Clusters → Clusters → ℝ} {lists : List Clusters} {choice : List Nat}
    (hc : Choice (lists.length * (lists.length - 1) / 2) m choice)
    (h : ∀ c ∈ lists, ∀ d ∈ lists, nviLists c d (some N) = .ok (f c d)) :
    ∃ v, (match values N (pick choice (pairs lists)) with
      | .error e => (.error e : Except Verif.Info.Err (Option ℝ))
      | .ok l => .ok (mean l)) = .ok v ∧ MeanOver f m lists v := by
  obtain ⟨sample, h1, h2, h3, h4⟩ := sampled hc
  have hv := values_ok (N := N) (f := f) (pick choice (pairs lists)) (by
    rw [h4]
    intro e he
    obtain ⟨p, hp, rfl⟩ := List.mem_map.1 he
    obtain ⟨hp1, hp2⟩ := h3 p hp
    simp only
    apply h
    · rw [List.getD_eq_getElem _ _ (by omega : p.1 < lists.length)]; exact List.getElem_mem _
    · rw [List.getD_eq_getElem _ _ hp2]; exact List.getElem_mem _)
  refine ⟨mean ((pick choice (pairs lists)).map fun e => f e.1 e.2), ?_, sample, h1, h2, h3, ?_⟩
  · rw [hv]
  · rw [h4, List.map_map]
    exact Verif.Scripts.Cluster.mean_spec _

/-- Two repetitions: the only pair is compared. -/
theorem mean_two {N : Nat} {f : Clusters → Clusters → ℝ} {c d : Clusters}
    (h : nviLists c d (some N) = .ok (f c d)) :
    (match values N (pick [0] (pairs [c, d])) with
      | .error e => (.error e : Except Verif.Info.Err (Option ℝ))
      | .ok l => .ok (mean l)) = .ok (some (f c d)) := by
  have hp : pick [0] (pairs [c, d]) = [(c, d)] := by simp [pick, pairs]
  rw [hp, values_ok (f := f) [(c, d)] (by simpa using h)]
  simp [mean]

theorem clusteringOf_isPartition {n : Nat} {cl : Clusters} (h : Verif.Partition.IsPartition n cl)
    (hne : ∀ c ∈ cl, c.Nonempty) : ClusteringOf (Finset.range n) cl := by
  refine ⟨⟨?_, ?_⟩, fun h0 => Finset.not_nonempty_empty (hne _ h0)⟩
  · rw [List.pairwise_iff_getElem]
    intro i j hi hj hij
    rw [Finset.disjoint_left]
    intro v hv1 hv2
    have h1 : Verif.Partition.At cl i v := ⟨cl[i], by simp [hi], hv1⟩
    have h2 : Verif.Partition.At cl j v := ⟨cl[j], by simp [hj], hv2⟩
    rcases Nat.lt_or_ge v n with hv | hv
    · have := ((h v).1 hv).unique h1 h2
      omega
    · exact (h v).2 hv i h1
  · intro v
    rw [Finset.mem_range]
    constructor
    · intro hv
      obtain ⟨i, ⟨c, hc, hm⟩, _⟩ := (h v).1 hv
      exact ⟨c, List.mem_of_getElem? hc, hm⟩
    · rintro ⟨c, hc, hm⟩
      by_contra hv
      obtain ⟨i, hi⟩ := List.getElem?_of_mem hc
      exact (h v).2 (by omega) i ⟨c, hi, hm⟩

theorem rowsT_largest {A : Autocov K} (hA : Loaded A) (label : Nat → Nat) :
    rowsT .largest A label = (compNodes A.PT.nrows label (largestLabel A.PT.nrows label)).length + 1 :=
  (fit0_piece hA.fit label _).2.1

theorem rowsT_size {A : Autocov K} (hA : Loaded A) {label : Nat → Nat} (hc : Comps A label) {s : Nat}
    (hs : LargestSize A s) : rowsT .largest A label = s + 1 := by
  rw [rowsT_largest hA]
  congr 1
  obtain ⟨⟨v, hv, F, hF, hFc⟩, hmax⟩ := hs
  obtain ⟨⟨w, hw, hwl⟩, hm⟩ := largest_spec hc hA.fit.pos
  apply le_antisymm
  · rw [← List.toFinset_card_of_nodup (nodup_compNodes A.PT.nrows label _)]
    apply hmax w hw
    intro u hu
    rw [List.mem_toFinset, mem_compNodes, ← hwl] at hu
    exact ⟨hu.1, (hc.same u hu.1 w hw).1 hu.2⟩
  · rw [← hFc]
    refine le_trans ?_ (hm (label v))
    rw [← List.toFinset_card_of_nodup (nodup_compNodes A.PT.nrows label (label v))]
    apply Finset.card_le_card
    intro u hu
    rw [List.mem_toFinset, mem_compNodes]
    exact ⟨((hF u).1 hu).1, (hc.same u ((hF u).1 hu).1 v hv).2 ((hF u).1 hu).2⟩

theorem largestSize_pos {A : Autocov K} {s : Nat} (hs : LargestSize A s) : 1 ≤ s := by
  obtain ⟨⟨v, hv, F, hF, hFc⟩, _⟩ := hs
  rw [← hFc]
  exact Finset.card_pos.2 ⟨v, (hF v).2 ⟨hv, Relation.EqvGen.refl v⟩⟩

end Verif.NviReport
