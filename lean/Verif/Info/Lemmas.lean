import Verif.Info.Model
import Verif.Info.Entropy
import Mathlib.Data.List.Sort

/-!
# Lemmas about the model of the comparison measures
-/

namespace Verif.Info

open Finset

/-- Contribution of a pair of clusters. -/
noncomputable def term (c d : Finset Nat) : ℝ := nviTerm c.card d.card (c ∩ d).card

theorem nviRow_eq (c : Finset Nat) : ∀ (ds : List (Finset Nat)) (k : Nat) (v : ℝ),
    k + (ds.map fun d => (c ∩ d).card).sum = c.card → nviRow c ds k v = v - (ds.map (term c)).sum
  | [], k, v, _ => by simp [nviRow]
  | d :: ds, k, v, h => by
    rw [List.map_cons, List.sum_cons] at h
    have hv : (if 0 < (c ∩ d).card then v - (c ∩ d).card * Real.logb 2 (((c ∩ d).card : ℝ) ^ 2 / (c.card * d.card))
        else v) = v - term c d := by
      unfold term nviTerm
      split
      · rfl
      · simp
    show (if c.card ≤ k + (c ∩ d).card then _ else nviRow c ds (k + (c ∩ d).card) _) = _
    rw [hv, List.map_cons, List.sum_cons]
    split
    · next hle =>
      have h0 : (ds.map fun d => (c ∩ d).card).sum = 0 := by omega
      have hz : (ds.map (term c)).sum = 0 := by
        apply List.sum_eq_zero
        intro x hx
        obtain ⟨e, he, rfl⟩ := List.mem_map.1 hx
        have : (c ∩ e).card = 0 := List.sum_eq_zero_iff.1 h0 _ (List.mem_map.2 ⟨e, he, rfl⟩)
        unfold term nviTerm
        rw [this]; simp
      rw [hz]; ring
    · rw [nviRow_eq c ds _ _ (by omega)]; ring

theorem nviLoop_eq (ds : List (Finset Nat)) : ∀ (cs : List (Finset Nat)) (v : ℝ),
    (∀ c ∈ cs, (ds.map fun d => (c ∩ d).card).sum = c.card) →
    nviLoop ds cs v = v - (cs.map fun c => (ds.map (term c)).sum).sum
  | [], v, _ => by simp [nviLoop]
  | c :: cs, v, h => by
    unfold nviLoop
    rw [nviRow_eq c ds 0 v (by rw [Nat.zero_add]; exact h c (by simp)),
      nviLoop_eq ds cs _ fun c hc => h c (by simp [hc])]
    simp only [List.map_cons, List.sum_cons]
    ring

theorem natCast_sum (l : List Nat) : ((l.sum : Nat) : ℝ) = (l.map (fun k : Nat => (k : ℝ))).sum := by
  induction l with
  | nil => simp
  | cons a l ih => simp [ih]

theorem sum_inter {U : Finset Nat} {ds : List (Finset Nat)} (k : Clustering U ds) {c : Finset Nat} (hc : c ⊆ U) :
    (ds.map fun d => (c ∩ d).card).sum = c.card := by
  have h1 := sum_clusters (cs := ds.map (c ∩ ·)) (U := c) (by
      rw [List.pairwise_map]
      exact k.1.imp fun h => Finset.disjoint_of_subset_left Finset.inter_subset_right
        (Finset.disjoint_of_subset_right Finset.inter_subset_right h)) (by
      intro x
      constructor
      · intro hx
        obtain ⟨d, hd, hxd⟩ := (k.2 x).1 (hc hx)
        exact ⟨c ∩ d, List.mem_map.2 ⟨d, hd, rfl⟩, Finset.mem_inter.2 ⟨hx, hxd⟩⟩
      · rintro ⟨e, he, hx⟩
        obtain ⟨d, _, rfl⟩ := List.mem_map.1 he
        exact (Finset.mem_inter.1 hx).1) fun _ => 1
  rw [List.map_map] at h1
  have h2 : (((ds.map fun d => (c ∩ d).card).sum : Nat) : ℝ) = c.card := by
    rw [natCast_sum, List.map_map]
    simpa [Function.comp_def] using h1
  exact_mod_cast h2

theorem Clustering.subset {U : Finset Nat} {cs : List (Finset Nat)} (h : Clustering U cs) {c : Finset Nat}
    (hc : c ∈ cs) : c ⊆ U := fun x hx => (h.2 x).2 ⟨c, hc, hx⟩

theorem card_sum {U : Finset Nat} {cs : List (Finset Nat)} (h : Clustering U cs) :
    (cs.map Finset.card).sum = U.card := by
  have := sum_inter h (c := U) subset_rfl
  rw [← this]
  congr 1
  apply List.map_congr_left
  intro c hc
  rw [Finset.inter_eq_right.2 (h.subset hc)]

/-- The double sum is minus the number of nodes times the variation of information. -/
theorem double_sum {U : Finset Nat} {cs ds : List (Finset Nat)} (h : Clustering U cs) (k : Clustering U ds) :
    (cs.map fun c => (ds.map (term c)).sum).sum =
      -(cond U (cell cs) (cell ds) + cond U (cell ds) (cell cs)) := by
  have h1 : ∀ c ∈ cs, (ds.map (term c)).sum =
      ∑ x ∈ c, Real.logb 2 (((cell cs x ∩ cell ds x).card : ℝ) ^ 2 / ((cell cs x).card * (cell ds x).card)) := by
    intro c hc
    have hU : ∀ x, x ∈ c ↔ ∃ e ∈ ds.map (c ∩ ·), x ∈ e := by
      intro x
      constructor
      · intro hx
        obtain ⟨d, hd, hxd⟩ := (k.2 x).1 (h.subset hc hx)
        exact ⟨c ∩ d, List.mem_map.2 ⟨d, hd, rfl⟩, Finset.mem_inter.2 ⟨hx, hxd⟩⟩
      · rintro ⟨e, he, hx⟩
        obtain ⟨d, _, rfl⟩ := List.mem_map.1 he
        exact (Finset.mem_inter.1 hx).1
    have hd : (ds.map (c ∩ ·)).Pairwise Disjoint := by
      rw [List.pairwise_map]
      exact k.1.imp fun h => Finset.disjoint_of_subset_left Finset.inter_subset_right
        (Finset.disjoint_of_subset_right Finset.inter_subset_right h)
    rw [← sum_clusters hd hU, List.map_map]
    congr 1
    apply List.map_congr_left
    intro d hd'
    simp only [Function.comp_apply]
    rw [Finset.sum_congr rfl fun x hx => by
      rw [cell_eq h.1 hc (Finset.mem_inter.1 hx).1, cell_eq k.1 hd' (Finset.mem_inter.1 hx).2], Finset.sum_const,
      nsmul_eq_mul]
    unfold term nviTerm
    split
    · rfl
    · next h0 => rw [Nat.eq_zero_of_not_pos h0]; simp
  rw [List.map_congr_left h1, sum_clusters h.1 h.2]
  unfold cond
  rw [← Finset.sum_add_distrib, ← Finset.sum_neg_distrib]
  apply Finset.sum_congr rfl
  intro x hx
  have p1 := h.cells.pos hx
  have p2 := k.cells.pos hx
  have p3 := (h.cells.inter k.cells).pos hx
  have p4 := (k.cells.inter h.cells).pos hx
  rw [← Real.logb_mul (by positivity) (by positivity), ← Real.logb_inv, Finset.inter_comm (cell ds x)]
  congr 1
  field_simp

theorem sortClusters_perm (cs : List (Finset Nat)) : (sortClusters cs).Perm cs := List.mergeSort_perm _ _

theorem Clustering.perm {U : Finset Nat} {cs ds : List (Finset Nat)} (h : Clustering U cs) (p : ds.Perm cs) :
    Clustering U ds :=
  ⟨(p.pairwise_iff (fun {_ _} h => h.symm)).2 h.1, fun x => by rw [h.2]; simp only [p.mem_iff]⟩

theorem cell_perm {U : Finset Nat} {cs ds : List (Finset Nat)} (h : Clustering U cs) (p : ds.Perm cs) {x : Nat}
    (hx : x ∈ U) : cell ds x = cell cs x :=
  cell_eq (h.perm p).1 (p.mem_iff.2 (h.cell_mem hx)) (h.cells.mem x hx)

theorem sameClusters_iff {U : Finset Nat} {cs ds : List (Finset Nat)} (h : Clustering U cs) (k : Clustering U ds) :
    SameClusters cs ds ↔ ∀ x ∈ U, cell cs x = cell ds x := by
  constructor
  · intro hs x hx
    have hm := (hs (cell cs x) ⟨x, h.cells.mem x hx⟩).1 (h.cell_mem hx)
    exact (cell_eq k.1 hm (h.cells.mem x hx)).symm
  · intro hc c hne
    rw [h.mem_iff hne, k.mem_iff hne]
    constructor
    · rintro ⟨x, hx, rfl⟩; exact ⟨x, hx, (hc x hx).symm⟩
    · rintro ⟨x, hx, rfl⟩; exact ⟨x, hx, hc x hx⟩

theorem vi_zero_iff {U : Finset Nat} {cs ds : List (Finset Nat)} (h : Clustering U cs) (k : Clustering U ds) :
    cond U (cell cs) (cell ds) + cond U (cell ds) (cell cs) = 0 ↔ SameClusters cs ds := by
  rw [sameClusters_iff h k]
  constructor
  · intro h0 x hx
    have h1 := cond_nonneg h.cells k.cells
    have h2 := cond_nonneg k.cells h.cells
    exact Finset.Subset.antisymm (cond_zero k.cells h.cells (by linarith) hx) (cond_zero h.cells k.cells (by linarith) hx)
  · intro hc
    rw [cond_congr (A' := cell cs) (B' := cell cs) (fun _ _ => rfl) fun x hx => (hc x hx).symm,
      cond_congr (A := cell ds) (B := cell cs) (A' := cell cs) (B' := cell cs) (fun x hx => (hc x hx).symm) fun _ _ => rfl,
      cond_self h.cells, add_zero]

/-- As many disjoint nonempty clusters as nodes: they are singletons. -/
theorem singleton_clusters {U : Finset Nat} {cs : List (Finset Nat)} (h : Clustering U cs) (hl : cs.length = U.card)
    (hne : ∅ ∉ cs) {x : Nat} (hx : x ∈ U) : cell cs x = {x} := by
  have hs := card_sum h
  have h1 : ∀ c ∈ cs, 1 ≤ c.card := fun c hc => Finset.card_pos.2
    (Finset.nonempty_iff_ne_empty.2 fun h => hne (h ▸ hc))
  have : ∀ (l : List (Finset Nat)), (∀ c ∈ l, 1 ≤ c.card) → l.length ≤ (l.map Finset.card).sum ∧
      ((l.map Finset.card).sum = l.length → ∀ c ∈ l, c.card = 1) := by
    intro l
    induction l with
    | nil => simp
    | cons a l ih =>
      intro hl
      obtain ⟨i1, i2⟩ := ih fun c hc => hl c (by simp [hc])
      have ha := hl a (by simp)
      simp only [List.map_cons, List.sum_cons, List.length_cons, List.mem_cons, forall_eq_or_imp]
      refine ⟨by omega, fun he => ⟨by omega, i2 (by omega)⟩⟩
  have h2 := (this cs h1).2 (by rw [hs, hl]) _ (h.cell_mem hx)
  obtain ⟨y, hy⟩ := Finset.card_eq_one.1 h2
  have hm := h.cells.mem x hx
  rw [hy] at hm ⊢
  rw [Finset.mem_singleton.1 hm]

end Verif.Info
