import Verif.SparseLouvain.Agg
import Verif.Louvain.Isolated

/-!
# The meta loops of sparse and dense Louvain agree
-/

set_option linter.unusedSectionVars false
set_option linter.unusedSimpArgs false
set_option linter.dupNamespace false

namespace Verif.SparseLouvain

open Verif.Partition Verif.Autocov Verif.Csr
open Verif.Louvain (Sched Params listSet updatePart Clu moveLoop moveNodes metaLoop Isolated aggS
  rowSum)

variable {K : Type} [Field K] [LinearOrder K] [IsStrictOrderedRing K]

theorem sum_card_le (l : List (Finset Nat)) (h : ∀ c ∈ l, c.Nonempty) :
    l.length ≤ (l.map Finset.card).sum ∧
      ((l.map Finset.card).sum = l.length → ∀ c ∈ l, c.card = 1) := by
  induction l with
  | nil => simp
  | cons c l ih =>
    obtain ⟨h1, h2⟩ := ih fun d hd => h d (by simp [hd])
    have hc : 1 ≤ c.card := Finset.card_pos.2 (h c (by simp))
    simp only [List.map_cons, List.sum_cons, List.length_cons]
    refine ⟨by omega, fun he d hd => ?_⟩
    rcases List.mem_cons.1 hd with rfl | hd
    · omega
    · exact h2 (by omega) d hd

theorem sum_card {n : Nat} {cl : List (Finset Nat)} (h : IsPartition n cl) :
    (cl.map Finset.card).sum = n := by
  have hp := (isGrouping_clusters h).length_eq
  rw [List.length_range, List.length_flatten, List.map_map] at hp
  rw [← hp]
  congr 1
  apply List.map_congr_left
  intro c _
  show c.card = (listSet c).length
  rw [← List.toFinset_card_of_nodup (Verif.Louvain.listSet_nodup c), listSet_toFinset]

/-- As many non-empty clusters as nodes means that every node is alone. -/
theorem card_one_of_length {n : Nat} {cl : List (Finset Nat)} (h : IsPartition n cl)
    (hne : ∀ c ∈ cl, c.Nonempty) (hl : cl.length = n) : ∀ c ∈ cl, c.card = 1 :=
  (sum_card_le cl hne).2 (by rw [sum_card h, hl])

/-- Aggregation over clusters of which the first is `{0}` keeps node 0 isolated. -/
theorem aggregate_isolated {n : Nat} {S T : Nat → Nat → K} {p : Part} (h : Consistent p)
    (hn : p.numNodes = n) (hT : Isolated T n) (hnn : ∀ i < n, ∀ j < n, 0 ≤ T i j)
    (h0 : p.clusters[0]? = some {0}) (mc : Clu K)
    (hmc : Verif.Louvain.aggregate T S p = .ok mc) :
    Isolated mc.T mc.n ∧ mc.part.clusters[0]? = some {0} := by
  have hpart := h.1
  rw [hn] at hpart
  obtain ⟨_, e2, _⟩ := Verif.Louvain.aggregate_ok T S hmc
  have h00 : At p.clusters 0 0 := ⟨_, h0, by simp⟩
  have hl0 := at_lt h00
  have hform : mc.T = (fun s t => aggS T p.clusters s t
      / rowSum p.clusters.length (aggS T p.clusters) s) ∧
      mc.part.clusters = singletons p.clusters.length := by
    unfold Verif.Louvain.aggregate Verif.Louvain.mkClu at hmc
    dsimp only at hmc
    split at hmc
    · simp at hmc
    · split at hmc
      · split at hmc
        · simp at hmc
        · rename_i q hq
          injection hmc with hmc
          obtain ⟨q', hq', _, _, h3⟩ := Verif.Louvain.mk'_none p.clusters.length false
          rw [hq'] at hq
          injection hq with hq
          rw [← hmc]
          exact ⟨rfl, by rw [← hq]; exact h3⟩
      · simp at hmc
  obtain ⟨eT, ep⟩ := hform
  have honly : ∀ i, At p.clusters 0 i → i = 0 := by
    rintro i ⟨c, hc, hi⟩
    rw [h0] at hc
    injection hc with hc
    subst hc
    simpa using hi
  have hz : ∀ b, b ≠ 0 → aggS T p.clusters 0 b ≤ 0 ∧ aggS T p.clusters b 0 ≤ 0 := by
    intro b hb0
    constructor
    · rw [← not_lt, aggS_pos_iff T hpart hnn]
      rintro ⟨i, j, hi, hj, hp⟩
      rw [honly i hi] at hp
      exact (hT j (Verif.Louvain.at_lt_n hpart hj) (by
        rintro rfl
        exact hb0 (hpart.disj 0 b 0 hj h00))).1 hp
    · rw [← not_lt, aggS_pos_iff T hpart hnn]
      rintro ⟨i, j, hi, hj, hp⟩
      rw [honly j hj] at hp
      exact (hT i (Verif.Louvain.at_lt_n hpart hi) (by
        rintro rfl
        exact hb0 (hpart.disj 0 b 0 hi h00))).2 hp
  have hrow : ∀ a, 0 ≤ rowSum p.clusters.length (aggS T p.clusters) a := by
    intro a
    apply Finset.sum_nonneg
    intro b _
    apply Finset.sum_nonneg
    intro i hi
    apply Finset.sum_nonneg
    intro j hj
    exact hnn i (Verif.Louvain.at_lt_n hpart (Verif.Louvain.at_iff_getD.2 hi)) j
      (Verif.Louvain.at_lt_n hpart (Verif.Louvain.at_iff_getD.2 hj))
  constructor
  · intro b _ hb0
    rw [eT]
    exact ⟨not_lt.2 (div_nonpos_of_nonpos_of_nonneg (hz b hb0).1 (hrow 0)),
      not_lt.2 (div_nonpos_of_nonpos_of_nonneg (hz b hb0).2 (hrow b))⟩
  · rw [ep]
    unfold singletons
    simp [hl0]

theorem sMetaLoop_eq {A : Autocov K} (f : Fit0 A) (I : Prop)
    (hrow : (∀ i < A.PT.nrows, A.PT.row i ≠ []) ∨ (I ∧ Iso A))
    {S T : Nat → Nat → K} (s : Dense0 A S T) (hiso : I → Isolated T A.PT.nrows)
    (sc : Sched) (par : Params K) (steps k0 : Nat) (delta : K) (stop : Bool) (self : Part)
    (mc : SClu K) (dmc : Clu K) (hself : Consistent self) (hn : self.numNodes = A.PT.nrows)
    (hne : ∀ c ∈ self.clusters, c.Nonempty) (h0 : I → self.clusters[0]? = some {0})
    (hinv : stop = true ∨ (Rel mc.A dmc.n dmc.S dmc.T ∧ mc.part = dmc.part ∧ Consistent mc.part ∧
      mc.part.numNodes = dmc.n ∧ dmc.n = self.clusters.length ∧
      (I → Isolated dmc.T dmc.n ∧ dmc.part.clusters[0]? = some {0}))) :
    sMetaLoop sc par A steps k0 delta stop self mc =
      lift (metaLoop sc par T S steps k0 delta stop self dmc) ∧
    (I → ∀ k p, metaLoop sc par T S steps k0 delta stop self dmc = .ok (k, p) →
      p.clusters[0]? = some {0}) := by
  induction steps generalizing k0 delta stop self mc dmc with
  | zero =>
    refine ⟨rfl, fun _ k p h => ?_⟩
    simp [metaLoop] at h
  | succ steps ih =>
    unfold sMetaLoop metaLoop
    split
    · refine ⟨rfl, fun hI k p h => ?_⟩
      simp only [Except.ok.injEq, Prod.mk.injEq] at h
      rw [← h.2]
      exact h0 hI
    · rename_i hcond
      have hstop : stop ≠ true := fun h => hcond (Or.inr (Or.inl h))
      obtain ⟨hrel, hpart, hc, hcn, hlen, hdiso⟩ := hinv.resolve_left hstop
      dsimp only
      have hmove := sMoveNodes_eq hrel sc (k0 + 1) par.thr par.nSub (par.nSub + 1) hc hcn
      have e1 : (⟨mc.A, mc.part⟩ : SClu K) = mc := rfl
      have e2 : (⟨dmc.n, dmc.T, dmc.S, mc.part⟩ : Clu K) = dmc := by rw [hpart]
      rw [e1, e2] at hmove
      rw [hmove]
      obtain ⟨g, k', p1, h1, h2, h3, h4, h5, h6⟩ := Verif.Louvain.moveLoop_spec sc (k0 + 1) par.thr
        par.nSub dmc.S dmc.T (par.nSub + 1) 1 1 0 hc (by omega)
      have hmv : moveNodes sc (k0 + 1) par.thr par.nSub dmc (par.nSub + 1) = .ok (0 + g, k', p1) := by
        unfold moveNodes
        rw [← hpart, ← hcn]
        exact h1
      rw [hmv]
      simp only [lift_ok]
      have hp1n : p1.numNodes = self.clusters.length := by rw [h3, hcn, hlen]
      have hmp0 : I → p1.clusters[0]? = some {0} := by
        intro hI
        obtain ⟨ha, hb⟩ := hdiso hI
        rw [← hpart] at hb
        rw [← hcn] at ha
        exact Verif.Louvain.moveLoop_isolated sc (k0 + 1) par.thr par.nSub dmc.S dmc.T
          (par.nSub + 1) 1 1 0 hc ha hb _ _ _ h1
      obtain ⟨self', h7, h8, h9, h10, h11⟩ := Verif.Louvain.updatePart_spec hself hne h2 hp1n
        (by rw [hn]; exact f.pos)
      have hs0 : I → self'.clusters[0]? = some {0} := fun hI =>
        Verif.Louvain.updatePart_isolated hself hne h2 h6 hp1n (by rw [hn]; exact f.pos) (h0 hI)
          (hmp0 hI) self' h7
      rw [h7]
      simp only
      split
      · exact ih _ _ _ self' _ _ h8 (h9.trans hn) h10 hs0 (Or.inl rfl)
      · rename_i hgo
        have hnl : self'.clusters.length ≠ A.PT.nrows := fun hl => by
          have hp := h8.1
          rw [h9, hn] at hp
          exact hgo (Or.inl (card_one_of_length hp h10 hl))
        obtain ⟨mc', ha, hr⟩ := rel_aggregate f I hrow s h8 (h9.trans hn) h10 hs0
        rw [ha]
        obtain ⟨e1, e2, e3, e4, e5⟩ := Verif.Louvain.aggregate_ok T S ha
        have hq : mk' (A.aggregate (self'.clusters.map listSet)).PT.nrows .none false = .ok mc'.part := by
          rw [hr.rows, e2]
          unfold Verif.Louvain.aggregate Verif.Louvain.mkClu at ha
          dsimp only at ha
          split at ha
          · simp at ha
          · split at ha
            · split at ha
              · simp at ha
              · rename_i q hq
                injection ha with ha
                rw [hq, ← ha]
            · simp at ha
        unfold sAggregate mkS
        rw [if_neg hnl, hq]
        simp only
        exact ih _ _ _ self' _ mc' h8 (h9.trans hn) h10 hs0
          (Or.inr ⟨hr, rfl, e3, by rw [e4, e2], e2, fun hI =>
            aggregate_isolated h8 (h9.trans hn) (hiso hI) s.nonneg (hs0 hI) mc' ha⟩)

end Verif.SparseLouvain
