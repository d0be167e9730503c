import Verif.Trans.Props

/-!
# Stationary transition matrix: property C41
-/

set_option linter.dupNamespace false
set_option linter.unusedSectionVars false
set_option linter.unusedSimpArgs false

namespace Verif.Trans

open Verif.TempNet Finset

variable {K : Type} [Field K] [LinearOrder K] [IsStrictOrderedRing K]

theorem walk_isolated {n : Nat} {G : Nat → Nat → Prop} {i : Nat} (h : degree n G i = 0) (j : Nat) :
    (walk n G i j : K) = if i = j then 1 else 0 := by
  unfold walk walkLaplacian eye
  rw [if_pos h]
  ring

open Classical in
theorem walk_connected {n : Nat} {G : Nat → Nat → Prop} {i : Nat} (h : degree n G i ≠ 0) (j : Nat) :
    (walk n G i j : K) = if G i j then 1 / (degree n G i : K) else 0 := by
  unfold walk walkLaplacian eye
  rw [if_neg h]
  ring

theorem degree_pos {n : Nat} {G : Nat → Nat → Prop} (hG : Undirected n G) {i j : Nat} (h : G i j) :
    degree n G i ≠ 0 := by
  unfold degree
  rw [Finset.card_ne_zero]
  exact ⟨j, by simp [h, (hG.inRange i j h).2]⟩

theorem degs_eq {n : Nat} {G : Nat → Nat → Prop} {i : Nat} (hi : i < n) :
    degs n (walk n G : Mat K) i = if degree n G i = 0 then 1 else degree n G i := by
  classical
  have hcard : degs n (walk n G : Mat K) i = ((range n).filter fun j => (walk n G i j : K) ≠ 0).card := by
    unfold degs
    rw [Finset.card_def, Finset.filter_val, Finset.range_val]
    rw [show Multiset.range n = ((List.range n : List Nat) : Multiset Nat) from rfl, Multiset.filter_coe,
      Multiset.coe_card]
  rw [hcard]
  split
  · rename_i h
    have : ((range n).filter fun j => (walk n G i j : K) ≠ 0) = {i} := by
      ext j
      simp only [mem_filter, mem_range, mem_singleton, walk_isolated h]
      constructor
      · rintro ⟨_, h2⟩
        by_contra hc
        exact h2 (if_neg (Ne.symm hc))
      · rintro rfl
        simp [hi]
    rw [this, card_singleton]
  · rename_i h
    unfold degree
    congr 1
    ext j
    simp only [mem_filter, mem_range, walk_connected h]
    have hd : (degree n G i : K) ≠ 0 := by exact_mod_cast h
    constructor
    · rintro ⟨h1, h2⟩
      refine ⟨h1, ?_⟩
      by_contra hc
      exact h2 (if_neg hc)
    · rintro ⟨h1, h2⟩
      refine ⟨h1, ?_⟩
      rw [if_pos h2]
      exact one_div_ne_zero hd

theorem degs_pos {n : Nat} {G : Nat → Nat → Prop} {i : Nat} (hi : i < n) :
    (0 : K) < degs n (walk n G : Mat K) i := by
  rw [degs_eq hi]
  split
  · simp
  · rename_i h; exact_mod_cast Nat.pos_of_ne_zero h

/-- Volume of the component of a node. -/
def vol (n : Nat) (lab : Nat → Nat) (T : Mat K) (c : Nat) : K :=
  ∑ k ∈ range n, if lab k = c then (degs n T k : K) else 0

theorem list_vol (n : Nat) (lab : Nat → Nat) (T : Mat K) (c : Nat) :
    (((List.range n).filter fun k => decide (lab k = c)).map fun k => (degs n T k : K)).sum =
      vol n lab T c := by
  unfold vol
  rw [← Finset.sum_filter]
  have : ((range n).filter fun k => lab k = c).val =
      (((List.range n).filter fun k => decide (lab k = c) : List Nat) : Multiset Nat) := by
    rw [Finset.filter_val, Finset.range_val]
    rw [show Multiset.range n = ((List.range n : List Nat) : Multiset Nat) from rfl, Multiset.filter_coe]
  unfold Finset.sum
  rw [this, Multiset.map_coe, Multiset.sum_coe]

theorem stationary_eq (n : Nat) (lab : Nat → Nat) (T : Mat K) (i j : Nat) :
    stationary n lab T i j = if lab j = lab i then (degs n T j : K) / vol n lab T (lab i) else 0 := by
  unfold stationary
  rw [list_vol]

theorem vol_pos {n : Nat} {G : Nat → Nat → Prop} (lab : Nat → Nat) {i : Nat} (hi : i < n) :
    0 < vol n lab (walk n G : Mat K) (lab i) := by
  unfold vol
  have h : ∀ k ∈ range n, (0 : K) ≤ if lab k = lab i then (degs n (walk n G : Mat K) k : K) else 0 := by
    intro k _
    split
    · exact Nat.cast_nonneg _
    · exact le_rfl
  have := Finset.single_le_sum h (mem_range.2 hi)
  simp only [if_true] at this
  exact lt_of_lt_of_le (degs_pos hi) this

/-- **C41**: the stationary matrix of the random walk on an undirected graph is stochastic. -/
theorem C41_stochastic {n : Nat} {G : Nat → Nat → Prop} (lab : Nat → Nat) :
    Stoch n (stationary n lab (walk n G : Mat K)) := by
  intro i hi
  have hv := vol_pos (K := K) (G := G) lab hi
  refine ⟨fun j hj => ?_, ?_⟩
  · rw [stationary_eq]
    split
    · exact div_nonneg (Nat.cast_nonneg _) hv.le
    · exact le_rfl
  · simp only [stationary_eq]
    have : ∀ j, (if lab j = lab i then (degs n (walk n G : Mat K) j : K) / vol n lab (walk n G) (lab i) else 0) =
        (if lab j = lab i then (degs n (walk n G : Mat K) j : K) else 0) / vol n lab (walk n G) (lab i) := by
      intro j; split <;> simp
    simp only [this]
    rw [← Finset.sum_div]
    exact div_self hv.ne'

/-- **C41**: from a node the walk reaches exactly the nodes connected to it, with the same
probabilities from all nodes of the component. -/
theorem C41_components {n : Nat} {G : Nat → Nat → Prop} {lab : Nat → Nat}
    (hl : Components n G lab) {i j : Nat} (hi : i < n) (hj : j < n) :
    (0 < stationary n lab (walk n G : Mat K) i j ↔ Relation.ReflTransGen G i j) ∧
    (Relation.ReflTransGen G i j → ∀ k < n, stationary n lab (walk n G : Mat K) i k =
      stationary n lab (walk n G) j k) := by
  have hv := vol_pos (K := K) (G := G) lab hi
  constructor
  · rw [stationary_eq, ← hl i hi j hj]
    constructor
    · intro h
      by_contra hc
      rw [if_neg (Ne.symm hc)] at h
      exact lt_irrefl _ h
    · intro h
      rw [if_pos h.symm]
      exact div_pos (degs_pos hj) hv
  · intro h k _
    rw [stationary_eq, stationary_eq, (hl i hi j hj).2 h]

/-- The degrees are left invariant by one step of the walk. -/
theorem degs_invariant {n : Nat} {G : Nat → Nat → Prop} (hG : Undirected n G) {lab : Nat → Nat}
    (hl : Components n G lab) (c : Nat) {j : Nat} (hj : j < n) :
    ∑ k ∈ range n, (if lab k = c then (degs n (walk n G : Mat K) k : K) else 0) * walk n G k j =
      if lab j = c then (degs n (walk n G : Mat K) j : K) else 0 := by
  classical
  by_cases hd : degree n G j = 0
  · rw [Finset.sum_eq_single j]
    · rw [walk_isolated hd]; simp
    · intro k hk hkj
      have hk' := mem_range.1 hk
      by_cases hdk : degree n G k = 0
      · rw [walk_isolated hdk, if_neg hkj, mul_zero]
      · have hw : (walk n G k j : K) = 0 := by
          rw [walk_connected hdk, if_neg]
          intro hc
          exact degree_pos hG (hG.symm _ _ hc) hd
        rw [hw, mul_zero]
    · intro h; exact absurd (mem_range.2 hj) h
  · have hterm : ∀ k ∈ range n,
        (if lab k = c then (degs n (walk n G : Mat K) k : K) else 0) * walk n G k j =
          if G j k then (if lab j = c then 1 else 0) else 0 := by
      intro k hk
      have hk' := mem_range.1 hk
      by_cases hg : G j k
      · have hkj := hG.symm _ _ hg
        have hdk := degree_pos hG hkj
        have hlab : lab k = lab j := ((hl j hj k hk').2 (Relation.ReflTransGen.single hg)).symm
        rw [walk_connected hdk, if_pos hkj, if_pos hg, degs_eq hk', if_neg hdk, hlab]
        split
        · rw [mul_one_div_cancel]; exact_mod_cast hdk
        · simp
      · rw [if_neg hg]
        by_cases hdk : degree n G k = 0
        · have hw : (walk n G k j : K) = 0 := by
            rw [walk_isolated hdk, if_neg]
            rintro rfl; exact hd hdk
          rw [hw, mul_zero]
        · rw [walk_connected hdk, if_neg (fun hc => hg (hG.symm _ _ hc)), mul_zero]
    rw [Finset.sum_congr rfl hterm, degs_eq hj, if_neg hd]
    split
    · rw [← Finset.sum_filter, Finset.sum_const, nsmul_eq_mul, mul_one]
      rfl
    · simp

/-- **C41**: the stationary matrix does not change when a step of the walk is made before or
after it, nor when it is applied twice. -/
theorem C41_invariant {n : Nat} {G : Nat → Nat → Prop} (hG : Undirected n G) {lab : Nat → Nat}
    (hl : Components n G lab) :
    EqOn n (mul n (stationary n lab (walk n G : Mat K)) (walk n G)) (stationary n lab (walk n G)) ∧
    EqOn n (mul n (walk n G) (stationary n lab (walk n G : Mat K))) (stationary n lab (walk n G)) ∧
    EqOn n (mul n (stationary n lab (walk n G : Mat K)) (stationary n lab (walk n G)))
      (stationary n lab (walk n G)) := by
  classical
  have hrow : ∀ (A : Mat K), Stoch n A → (∀ i < n, ∀ k < n, lab k ≠ lab i → A i k = 0) →
      EqOn n (mul n A (stationary n lab (walk n G : Mat K))) (stationary n lab (walk n G)) := by
    intro A hA hz i hi j hj
    unfold mul
    have : ∀ k ∈ range n, A i k * stationary n lab (walk n G : Mat K) k j =
        A i k * stationary n lab (walk n G : Mat K) i j := by
      intro k hk
      by_cases h : lab k = lab i
      · rw [stationary_eq, stationary_eq, h]
      · rw [hz i hi k (mem_range.1 hk) h, zero_mul, zero_mul]
    rw [Finset.sum_congr rfl this, ← Finset.sum_mul, (hA i hi).2, one_mul]
  refine ⟨?_, ?_, ?_⟩
  · intro i hi j hj
    unfold mul
    have hv := vol_pos (K := K) (G := G) lab hi
    have : ∀ k ∈ range n, stationary n lab (walk n G : Mat K) i k * walk n G k j =
        ((if lab k = lab i then (degs n (walk n G : Mat K) k : K) else 0) * walk n G k j) /
          vol n lab (walk n G : Mat K) (lab i) := by
      intro k _
      rw [stationary_eq]
      split
      · rw [div_mul_eq_mul_div]
      · simp
    rw [Finset.sum_congr rfl this, ← Finset.sum_div, degs_invariant hG hl _ hj, stationary_eq]
    split <;> simp
  · apply hrow
    · intro i hi
      by_cases hd : degree n G i = 0
      · simp only [walk_isolated hd]
        refine ⟨fun j _ => by split <;> simp, by simp [hi]⟩
      · simp only [walk_connected hd]
        have hd' : (degree n G i : K) ≠ 0 := by exact_mod_cast hd
        refine ⟨fun j _ => by
          split
          · exact one_div_nonneg.2 (Nat.cast_nonneg _)
          · exact le_rfl, ?_⟩
        rw [← Finset.sum_filter, Finset.sum_const, nsmul_eq_mul]
        exact mul_one_div_cancel hd'
    · intro i hi k hk hne
      by_cases hd : degree n G i = 0
      · rw [walk_isolated hd, if_neg]
        rintro rfl; exact hne rfl
      · rw [walk_connected hd, if_neg]
        intro hc
        exact hne ((hl i hi k hk).2 (Relation.ReflTransGen.single hc)).symm
  · apply hrow _ (C41_stochastic lab)
    intro i hi k hk hne
    rw [stationary_eq, if_neg hne]

/-- A path on three nodes and an isolated node. -/
def exGraph : Nat → Nat → Prop := fun i j =>
  (i = 0 ∧ j = 1) ∨ (i = 1 ∧ j = 0) ∨ (i = 1 ∧ j = 2) ∨ (i = 2 ∧ j = 1)

example : Undirected 4 exGraph ∧ Components 4 exGraph (fun i => if i = 3 then 1 else 0) := by
  refine ⟨⟨?_, ?_, ?_⟩, ?_⟩
  · intro i j; unfold exGraph; omega
  · intro i; unfold exGraph; omega
  · intro i j; unfold exGraph; omega
  · have h01 : exGraph 0 1 := by unfold exGraph; omega
    have h10 : exGraph 1 0 := by unfold exGraph; omega
    have h12 : exGraph 1 2 := by unfold exGraph; omega
    have h21 : exGraph 2 1 := by unfold exGraph; omega
    have to1 : ∀ i < 3, Relation.ReflTransGen exGraph i 1 := by
      intro i hi
      interval_cases i
      · exact .single h01
      · exact .refl
      · exact .single h21
    have from1 : ∀ i < 3, Relation.ReflTransGen exGraph 1 i := by
      intro i hi
      interval_cases i
      · exact .single h10
      · exact .refl
      · exact .single h12
    have keep : ∀ i j, Relation.ReflTransGen exGraph i j → (i = 3 ↔ j = 3) := by
      intro i j h
      induction h with
      | refl => rfl
      | tail _ hbc ih => rw [ih]; unfold exGraph at hbc; omega
    intro i hi j hj
    constructor
    · intro h
      by_cases hi3 : i = 3
      · by_cases hj3 : j = 3
        · subst hi3; subst hj3; exact .refl
        · simp [hi3, hj3] at h
      · by_cases hj3 : j = 3
        · simp [hi3, hj3] at h
        · exact (to1 i (by omega)).trans (from1 j (by omega))
    · intro h
      have := keep i j h
      by_cases hi3 : i = 3
      · simp [hi3, this.1 hi3]
      · have : j ≠ 3 := fun hc => hi3 (this.2 hc)
        simp [hi3, this]

end Verif.Trans
