import Verif.Rounding.Exact
import Verif.Rounding.Double

/-!
# C100 to C102: the dense Louvain clustering in machine arithmetic
-/

set_option linter.unusedSectionVars false

namespace Verif.Rounding

open Verif.Partition Verif.Louvain

variable {K : Type} [Field K] [LinearOrder K] [IsStrictOrderedRing K]

/-! ### Examples -/

/-- A schedule: nodes in increasing order. -/
def exF : FSched where
  toSched := exSched
  nodes := fun _ _ _ => listSet
  nodes_nodup := fun _ _ _ c => listSet_nodup c
  mem_nodes := fun _ _ _ c x => mem_listSet c x
  block := fun _ => listSet
  block_nodup := fun _ c => listSet_nodup c
  mem_block := fun _ c x => mem_listSet c x

/-- Parameters: threshold `2^(-52)` (the default) and the given limit of sweeps. -/
def exPar (nSub : Nat) : Params ℚ := { thr := 1 / 2 ^ 52, nMeta := 1000, nSub := nSub }

/-- A clustering of `n` nodes with the given transition and covariance matrices, one node
per cluster. -/
def exClu (n : Nat) (T S : Nat → Nat → ℚ) : Clu ℚ :=
  { n := n, T := T, S := S, part := removeEmpty ⟨n, singletons n, dictOf (singletons n)⟩ }

theorem exClu_fresh (n : Nat) (T S : Nat → Nat → ℚ) (h : rowsOk double n T) :
    FreshDefault double (exClu n T S) := by
  unfold FreshDefault mkClu
  have h' : rowsOk double (exClu n T S).n (exClu n T S).T := h
  rw [if_pos h']
  rfl

/-! ### C100 -/

/-- The partition of a clustering object is usable: it describes a partition of its nodes
without empty clusters. -/
def Usable {F : Type} (c : Clu F) : Prop :=
  Consistent c.part ∧ c.part.numNodes = c.n ∧ ∀ cl ∈ c.part.clusters, cl.Nonempty

/-- **C100.** The constructor leaves a usable partition, with the default clusters or with
any given valid ones, whatever the arithmetic. -/
theorem C100_constructed {F : Type} (ar : Arith F) (c : Clu F)
    (h : FreshDefault ar c ∨ ∃ cl, IsPartition c.n cl ∧ FreshFrom ar cl c) : Usable c := by
  rcases h with h | ⟨cl, hcl, h⟩
  · unfold FreshDefault mkClu at h
    obtain ⟨q, hq, h1, h2, h3⟩ := mk'_none c.n false
    rw [hq] at h
    split at h
    · injection h with h
      have hpart : c.part = q := by rw [← h]
      unfold Usable
      rw [hpart]
      exact ⟨h1, h2, by rw [h3]; exact singletons_nonempty _⟩
    · simp at h
  · unfold FreshFrom mkClu at h
    rw [mk'_clusterList] at h
    split at h
    · injection h with h
      have hpart : c.part = removeEmpty { numNodes := c.n, clusters := cl, dict := dictOf cl } := by
        rw [← h]
      unfold Usable
      rw [hpart]
      exact ⟨consistent_removeEmpty hcl, rfl, (removeEmpty_effect _).2⟩
    · simp at h

/-- **C100.** In any arithmetic, for all matrices (NaN included), schedules, thresholds and
limits: the call ends within its limits, with a valid partition without empty clusters, or
with the failed assertion of the constructor on an aggregated transition matrix. -/
theorem C100_any_arithmetic {F : Type} (ar : Arith F) (cy : Bool) (sc : FSched) (par : Params F)
    (c : Clu F) (hc : Usable c) (hn : 0 < c.n) :
    findLouvain ar cy sc par c = .error .assertionError ∨
    ∃ k p, findLouvain ar cy sc par c = .ok (k, p) ∧ Consistent p ∧ p.numNodes = c.n ∧
      (∀ cl ∈ p.clusters, cl.Nonempty) ∧ k ≤ par.nMeta + 1 := by
  obtain ⟨h1, h2, h3⟩ := hc
  unfold findLouvain
  rw [if_neg (by omega)]
  split
  · rw [mk'_clusterList]
    have hp : IsPartition c.n [Finset.range c.n] := by
      intro v
      constructor
      · intro hv
        refine ⟨0, ⟨_, rfl, Finset.mem_range.2 hv⟩, ?_⟩
        rintro i ⟨cl, hcl, _⟩
        cases i with
        | zero => rfl
        | succ i => simp at hcl
      · rintro hv i ⟨cl, hcl, hm⟩
        cases i with
        | zero =>
          simp at hcl
          subst hcl
          have := Finset.mem_range.1 hm
          omega
        | succ i => simp at hcl
    exact Or.inr ⟨0, _, rfl, consistent_removeEmpty hp, rfl, (removeEmpty_effect _).2, by omega⟩
  · unfold mkClu
    by_cases hrows : rowsOk ar c.n c.T
    · rw [if_pos hrows, mk'_clusterList]
      simp only
      have hlen : c.part.clusters.length ≤ c.n := by
        rw [← h2]
        exact clusters_le h1 h3
      have hcons : Consistent (removeEmpty
          { numNodes := c.n, clusters := c.part.clusters, dict := dictOf c.part.clusters }) :=
        consistent_removeEmpty (by rw [← h2]; exact h1.1)
      rcases metaLoop_any ar cy sc par c.T c.S (par.nMeta + 3) 0 ar.one false c.part
        (Clu.mk c.n c.T c.S (removeEmpty (Part.mk c.n c.part.clusters (dictOf c.part.clusters))))
        h1 (by omega)
        h3 (Or.inr ⟨hcons, rfl, hlen⟩) (by omega) (by omega) with e | ⟨k, p, a, b, d, e, f⟩
      · exact Or.inl e
      · exact Or.inr ⟨k, p, a, b, d.trans h2, e, f⟩
    · rw [if_neg hrows]
      exact Or.inl rfl
where
  clusters_le {p : Part} (h : Consistent p) (hne : ∀ c ∈ p.clusters, c.Nonempty) :
      p.clusters.length ≤ p.numNodes := by
    classical
    have hex : ∀ k, ∃ v, k < p.clusters.length → At p.clusters k v := by
      intro k
      by_cases hk : k < p.clusters.length
      · obtain ⟨v, hv⟩ := hne _ (List.getElem_mem hk)
        exact ⟨v, fun _ => ⟨_, List.getElem?_eq_getElem hk, hv⟩⟩
      · exact ⟨0, fun h => absurd h hk⟩
    choose f hf using hex
    have := Finset.card_le_card_of_injOn (s := Finset.range p.clusters.length)
      (t := Finset.range p.numNodes) f (by
        intro k hk
        have hk := Finset.mem_range.1 (Finset.mem_coe.1 hk)
        exact Finset.mem_coe.2 (Finset.mem_range.2 (at_lt_n h.1 (hf k hk)))) (by
        intro k hk l hl he
        have hk := Finset.mem_range.1 (Finset.mem_coe.1 hk)
        have hl := Finset.mem_range.1 (Finset.mem_coe.1 hl)
        exact h.1.disj (f k) k l (hf k hk) (he ▸ hf l hl))
    simpa using this

/-- **C100.** A node handled in any arithmetic stays, or joins the cluster of one of its
neighbours; the partition stays valid and nothing fails. -/
theorem C100_one_node {F : Type} (ar : Arith F) (cy : Bool) (S T : Nat → Nat → F) (p : Part)
    (h : Consistent p) (it : Finset Int → List Int) (hit : ∀ s x, x ∈ it s ↔ x ∈ s)
    (lst : Finset Nat → List Nat) (v : Nat) (hv : v < p.numNodes) :
    ∃ o p', visit ar cy S T p.numNodes it lst p v = .ok (o, p') ∧ Consistent p' ∧
      p'.numNodes = p.numNodes ∧
      ((o = none ∧ p' = p) ∨ (∃ g, o = some g) ∧ ∃ cf : Nat, ¬ At p.clusters cf v ∧
        p' = (moveNode p v cf).2 ∧ ∃ w < p.numNodes, At p.clusters cf w ∧
          (ar.lt ar.zero (T v w) = true ∨ ar.lt ar.zero (T w v) = true)) := by
  obtain ⟨o, p', h1, h2, h3, h4⟩ := visit_any ar cy S T h it hit lst hv
  refine ⟨o, p', h1, h2, h3, ?_⟩
  rcases h4 with h4 | ⟨g, hg, ci, cf, rOut, rIn, cs, hd, hne, hcf, hat, _, _, _, hp', _, w, hw, hwat⟩
  · exact Or.inl h4
  · refine Or.inr ⟨⟨g, hg⟩, cf, fun hf => hne (h.1.disj v ci cf hat hf), hp', w,
      Finset.mem_range.1 (Finset.mem_filter.1 hw).1, hwat, (Finset.mem_filter.1 hw).2⟩

/-- **C100.** With exact arithmetic (a division by zero gives NaN) the run is the one of the
exact model, whatever the orders in which sets are listed and with or without the compiled
sums: the statements of C26 to C30 are about the same program. -/
theorem C100_exact (cy : Bool) (sc : FSched) (par : Params K) (c : Clu K) :
    findLouvain (exact K) cy sc (liftPar par) (liftClu c) = Louvain.findLouvain sc.toSched par c := by
  unfold findLouvain Louvain.findLouvain
  have hn : (liftClu c).n = c.n := rfl
  rw [hn]
  by_cases h0 : c.n = 0
  · rw [if_pos h0, if_pos h0]
  · rw [if_neg h0, if_neg h0]
    have hz : ((exact K).negligible c.n ((List.range c.n).map fun i => (List.range c.n).map fun j =>
        (liftClu c).S i j) = true) ↔ sIsZero c.n c.S := by
      unfold sIsZero
      simp [exact, liftClu, lift]
    by_cases hs : sIsZero c.n c.S
    · rw [if_pos hs, if_pos (hz.2 hs)]
      rfl
    · rw [if_neg hs, if_neg (fun h => hs (hz.1 h))]
      have e : mkClu (exact K) c.n (liftClu c).T (liftClu c).S (.clusterList (liftClu c).part.clusters)
          = (Louvain.mkClu c.n c.T c.S (.clusterList c.part.clusters)).map liftClu :=
        mkClu_exact c.n c.T c.S _
      rw [e]
      cases Louvain.mkClu c.n c.T c.S (.clusterList c.part.clusters) with
      | error e => rfl
      | ok mc =>
        exact metaLoop_exact cy sc par c.T c.S (par.nMeta + 3) 0 1 false c.part (liftClu mc) mc
          ⟨rfl, rfl, rfl, fun _ _ _ _ => rfl⟩

/-- Non-vacuity for C100: double precision on three nodes. -/
example : ∃ c : Clu ℚ, Usable c ∧ 0 < c.n ∧ ∃ k p,
    findLouvain double true exF (exPar 1000) c = .ok (k, p) ∧ 1 < k := by
  have hf := exClu_fresh 3 (fun _ _ => 1 / 3) exS (by decide +kernel)
  refine ⟨_, C100_constructed double _ (Or.inl hf), by decide, ?_⟩
  have h : (match findLouvain double true exF (exPar 1000) (exClu 3 (fun _ _ => 1 / 3) exS) with
    | .ok (k, _) => decide (1 < k)
    | .error _ => false) = true := by decide +kernel
  split at h
  · rename_i k p he
    exact ⟨k, p, he, by simpa using h⟩
  · simp at h

end Verif.Rounding
