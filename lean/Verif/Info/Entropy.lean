import Verif.Info.Spec
import Mathlib.Algebra.BigOperators.Ring.Finset
import Mathlib.Algebra.Order.BigOperators.Group.Finset
import Mathlib.Algebra.BigOperators.Group.List.Lemmas
import Mathlib.Tactic.Linarith
import Mathlib.Tactic.FieldSimp
import Mathlib.Tactic.Ring
import Mathlib.Tactic.Positivity
import Mathlib.Algebra.Order.BigOperators.Group.List
import Mathlib.Algebra.BigOperators.Field
import Mathlib.Data.Finset.Lattice.Basic

/-!
# Entropies node by node
-/

namespace Verif.Info

open Finset

/-- A clustering as the function giving the cluster of a node. -/
structure Cells (U : Finset Nat) (A : Nat → Finset Nat) : Prop where
  mem : ∀ x ∈ U, x ∈ A x
  sub : ∀ x ∈ U, A x ⊆ U
  eq : ∀ x ∈ U, ∀ y ∈ A x, A y = A x

/-- Cluster of a node. -/
def cell (cs : List (Finset Nat)) (x : Nat) : Finset Nat := (cs.find? fun c => decide (x ∈ c)).getD ∅

theorem cell_eq {cs : List (Finset Nat)} (h : cs.Pairwise Disjoint) {c : Finset Nat} (hc : c ∈ cs) {x : Nat}
    (hx : x ∈ c) : cell cs x = c := by
  induction cs with
  | nil => simp at hc
  | cons d cs ih =>
    unfold cell
    rw [List.find?_cons]
    by_cases hd : x ∈ d
    · simp only [hd, decide_true, Option.getD_some]
      rcases List.mem_cons.1 hc with rfl | hc
      · rfl
      · exact absurd hx (Finset.disjoint_left.1 ((List.pairwise_cons.1 h).1 c hc) hd)
    · simp only [hd, decide_false]
      rcases List.mem_cons.1 hc with rfl | hc
      · exact absurd hx hd
      · exact ih (List.pairwise_cons.1 h).2 hc

theorem Clustering.cells {U : Finset Nat} {cs : List (Finset Nat)} (h : Clustering U cs) : Cells U (cell cs) := by
  refine ⟨?_, ?_, ?_⟩
  · intro x hx
    obtain ⟨c, hc, hxc⟩ := (h.2 x).1 hx
    rw [cell_eq h.1 hc hxc]; exact hxc
  · intro x hx y hy
    obtain ⟨c, hc, hxc⟩ := (h.2 x).1 hx
    rw [cell_eq h.1 hc hxc] at hy
    exact (h.2 y).2 ⟨c, hc, hy⟩
  · intro x hx y hy
    obtain ⟨c, hc, hxc⟩ := (h.2 x).1 hx
    rw [cell_eq h.1 hc hxc] at hy ⊢
    exact cell_eq h.1 hc hy

theorem Clustering.cell_mem {U : Finset Nat} {cs : List (Finset Nat)} (h : Clustering U cs) {x : Nat} (hx : x ∈ U) :
    cell cs x ∈ cs := by
  obtain ⟨c, hc, hxc⟩ := (h.2 x).1 hx
  rw [cell_eq h.1 hc hxc]; exact hc

theorem Clustering.mem_iff {U : Finset Nat} {cs : List (Finset Nat)} (h : Clustering U cs) {c : Finset Nat}
    (hc : c.Nonempty) : c ∈ cs ↔ ∃ x ∈ U, cell cs x = c := by
  constructor
  · intro hm
    obtain ⟨x, hx⟩ := hc
    exact ⟨x, (h.2 x).2 ⟨c, hm, hx⟩, cell_eq h.1 hm hx⟩
  · rintro ⟨x, hx, rfl⟩
    exact h.cell_mem hx

theorem mem_unions (l : List (Finset Nat)) (x : Nat) : x ∈ l.foldr (· ∪ ·) ∅ ↔ ∃ c ∈ l, x ∈ c := by
  induction l with
  | nil => simp
  | cons e l ih => simp [ih]

/-- Sums over clusters are sums over nodes. -/
theorem sum_clusters {cs : List (Finset Nat)} (h : cs.Pairwise Disjoint) {U : Finset Nat}
    (hU : ∀ x, x ∈ U ↔ ∃ c ∈ cs, x ∈ c) (g : Nat → ℝ) :
    (cs.map fun c => ∑ x ∈ c, g x).sum = ∑ x ∈ U, g x := by
  induction cs generalizing U with
  | nil =>
    have : U = ∅ := by
      ext x; rw [hU]; simp
    rw [this]; simp
  | cons d cs ih =>
    rw [List.map_cons, List.sum_cons, ih (U := cs.foldr (· ∪ ·) ∅) (List.pairwise_cons.1 h).2 (mem_unions cs)]
    rw [← Finset.sum_union]
    · congr 1
      ext x
      rw [hU, Finset.mem_union, mem_unions]; simp
    · rw [Finset.disjoint_left]
      intro x hx hx'
      obtain ⟨c, hc, hxc⟩ := (mem_unions _ _).1 hx'
      exact Finset.disjoint_left.1 ((List.pairwise_cons.1 h).1 c hc) hx hxc

theorem Clustering.sum {U : Finset Nat} {cs : List (Finset Nat)} (h : Clustering U cs) (g : Finset Nat → ℝ) :
    (cs.map fun c => (c.card : ℝ) * g c).sum = ∑ x ∈ U, g (cell cs x) := by
  rw [← sum_clusters h.1 h.2]
  congr 1
  apply List.map_congr_left
  intro c hc
  rw [Finset.sum_congr rfl fun x hx => by rw [cell_eq h.1 hc hx], Finset.sum_const, nsmul_eq_mul]

theorem Clustering.meet {U : Finset Nat} {cs ds : List (Finset Nat)} (h : Clustering U cs) (k : Clustering U ds) :
    Clustering U (meet cs ds) := by
  constructor
  · unfold Info.meet
    rw [List.pairwise_flatMap]
    constructor
    · intro c _
      rw [List.pairwise_map]
      exact k.1.imp fun h => Finset.disjoint_of_subset_left Finset.inter_subset_right
        (Finset.disjoint_of_subset_right Finset.inter_subset_right h)
    · refine h.1.imp fun {a b} hab x hx y hy => ?_
      rw [List.mem_map] at hx hy
      obtain ⟨d, _, rfl⟩ := hx
      obtain ⟨e, _, rfl⟩ := hy
      exact Finset.disjoint_of_subset_left Finset.inter_subset_left
        (Finset.disjoint_of_subset_right Finset.inter_subset_left hab)
  · intro x
    simp only [Info.meet, List.mem_flatMap, List.mem_map]
    constructor
    · intro hx
      obtain ⟨c, hc, hxc⟩ := (h.2 x).1 hx
      obtain ⟨d, hd, hxd⟩ := (k.2 x).1 hx
      exact ⟨c ∩ d, ⟨c, hc, d, hd, rfl⟩, Finset.mem_inter.2 ⟨hxc, hxd⟩⟩
    · rintro ⟨_, ⟨c, hc, d, hd, rfl⟩, hx⟩
      exact (h.2 x).2 ⟨c, hc, (Finset.mem_inter.1 hx).1⟩

theorem cell_meet {U : Finset Nat} {cs ds : List (Finset Nat)} (h : Clustering U cs) (k : Clustering U ds) {x : Nat}
    (hx : x ∈ U) : cell (Info.meet cs ds) x = cell cs x ∩ cell ds x := by
  apply cell_eq (h.meet k).1
  · simp only [Info.meet, List.mem_flatMap, List.mem_map]
    exact ⟨_, h.cell_mem hx, _, k.cell_mem hx, rfl⟩
  · exact Finset.mem_inter.2 ⟨h.cells.mem x hx, k.cells.mem x hx⟩

namespace Cells

variable {U : Finset Nat} {A B C : Nat → Finset Nat}

theorem inter (h : Cells U A) (k : Cells U B) : Cells U fun x => A x ∩ B x := by
  refine ⟨fun x hx => Finset.mem_inter.2 ⟨h.mem x hx, k.mem x hx⟩,
    fun x hx => Finset.inter_subset_left.trans (h.sub x hx), ?_⟩
  intro x hx y hy
  rw [Finset.mem_inter] at hy
  rw [h.eq x hx y hy.1, k.eq x hx y hy.2]

theorem pos (h : Cells U A) {x : Nat} (hx : x ∈ U) : (0 : ℝ) < (A x).card := by
  exact_mod_cast Finset.card_pos.2 ⟨x, h.mem x hx⟩

theorem symm (h : Cells U A) {x y : Nat} (hx : x ∈ U) (hy : y ∈ A x) : x ∈ A y := by
  rw [h.eq x hx y hy]; exact h.mem x hx

end Cells

/-- Number of nodes times the conditional entropy `H(A | B)`. -/
noncomputable def cond (U : Finset Nat) (A B : Nat → Finset Nat) : ℝ :=
  ∑ x ∈ U, Real.logb 2 ((B x).card / (A x ∩ B x).card)

/-- Everything in one cluster. -/
theorem cells_all (U : Finset Nat) : Cells U fun _ => U :=
  ⟨fun _ h => h, fun _ _ => subset_rfl, fun _ _ _ _ => rfl⟩

section

variable {U : Finset Nat} {A B C : Nat → Finset Nat}

theorem cond_nonneg (h : Cells U A) (k : Cells U B) : 0 ≤ cond U A B := by
  apply Finset.sum_nonneg
  intro x hx
  apply Real.logb_nonneg (by norm_num)
  rw [le_div_iff₀ ((h.inter k).pos hx), one_mul]
  exact_mod_cast Finset.card_le_card Finset.inter_subset_right

theorem pair_bound (h : Cells U A) (k : Cells U B) (l : Cells U C) (y z : Nat) (hy : y ∈ U) :
    (∑ x ∈ U, if y ∈ B x ∩ C x ∧ z ∈ A x ∩ B x then
      1 / (((A x ∩ (B x ∩ C x)).card : ℝ) * (B x).card) else 0) ≤
      if z ∈ B y then 1 / ((B y).card : ℝ) else 0 := by
  classical
  rw [← Finset.sum_filter]
  set F := U.filter fun x => y ∈ B x ∩ C x ∧ z ∈ A x ∩ B x with hF
  by_cases hne : F.Nonempty
  · obtain ⟨x0, hx0⟩ := hne
    have h0 : x0 ∈ U ∧ y ∈ B x0 ∩ C x0 ∧ z ∈ A x0 ∩ B x0 := by simpa [hF] using hx0
    obtain ⟨hU0, hy0, hz0⟩ := h0
    rw [Finset.mem_inter] at hy0 hz0
    have hall : ∀ x ∈ F, A x = A x0 ∧ B x = B x0 ∧ C x = C x0 := by
      intro x hx
      have : x ∈ U ∧ y ∈ B x ∩ C x ∧ z ∈ A x ∩ B x := by simpa [hF] using hx
      obtain ⟨hU, hy, hz⟩ := this
      rw [Finset.mem_inter] at hy hz
      refine ⟨?_, ?_, ?_⟩
      · rw [← h.eq x hU z hz.1, h.eq x0 hU0 z hz0.1]
      · rw [← k.eq x hU y hy.1, k.eq x0 hU0 y hy0.1]
      · rw [← l.eq x hU y hy.2, l.eq x0 hU0 y hy0.2]
    have hsub : F ⊆ A x0 ∩ (B x0 ∩ C x0) := by
      intro x hx
      obtain ⟨a, b, c⟩ := hall x hx
      have hxU : x ∈ U := (Finset.mem_filter.1 hx).1
      rw [Finset.mem_inter, Finset.mem_inter, ← a, ← b, ← c]
      exact ⟨h.mem x hxU, k.mem x hxU, l.mem x hxU⟩
    rw [Finset.sum_congr rfl fun x hx => by
      obtain ⟨a, b, c⟩ := hall x hx
      rw [a, b, c], Finset.sum_const, nsmul_eq_mul]
    have hBy : B y = B x0 := k.eq x0 hU0 y hy0.1
    rw [hBy, if_pos hz0.2]
    have hp := (h.inter (k.inter l)).pos hU0
    have hb := k.pos hU0
    rw [mul_one_div, div_le_div_iff₀ (by positivity) hb]
    have : (F.card : ℝ) ≤ (A x0 ∩ (B x0 ∩ C x0)).card := by exact_mod_cast Finset.card_le_card hsub
    nlinarith
  · rw [Finset.not_nonempty_iff_eq_empty.1 hne, Finset.sum_empty]
    split
    · positivity
    · exact le_rfl

theorem ratio_bound (h : Cells U A) (k : Cells U B) (l : Cells U C) :
    (∑ x ∈ U, ((B x ∩ C x).card : ℝ) * (A x ∩ B x).card /
      (((A x ∩ (B x ∩ C x)).card : ℝ) * (B x).card)) ≤ U.card := by
  classical
  have e : ∀ x ∈ U, ((B x ∩ C x).card : ℝ) * (A x ∩ B x).card /
      (((A x ∩ (B x ∩ C x)).card : ℝ) * (B x).card) =
      ∑ y ∈ U, ∑ z ∈ U, if y ∈ B x ∩ C x ∧ z ∈ A x ∩ B x then
        1 / (((A x ∩ (B x ∩ C x)).card : ℝ) * (B x).card) else 0 := by
    intro x hx
    have s1 : U.filter (· ∈ B x ∩ C x) = B x ∩ C x := by
      ext y
      simp only [Finset.mem_filter, and_iff_right_iff_imp]
      exact fun hy => k.sub x hx (Finset.mem_inter.1 hy).1
    have s2 : U.filter (· ∈ A x ∩ B x) = A x ∩ B x := by
      ext y
      simp only [Finset.mem_filter, and_iff_right_iff_imp]
      exact fun hy => h.sub x hx (Finset.mem_inter.1 hy).1
    have inner : ∀ y, (∑ z ∈ U, if y ∈ B x ∩ C x ∧ z ∈ A x ∩ B x then
        1 / (((A x ∩ (B x ∩ C x)).card : ℝ) * (B x).card) else 0) =
        if y ∈ B x ∩ C x then (A x ∩ B x).card * (1 / (((A x ∩ (B x ∩ C x)).card : ℝ) * (B x).card)) else 0 := by
      intro y
      by_cases hy : y ∈ B x ∩ C x
      · simp only [hy, true_and, if_true]
        rw [← Finset.sum_filter, s2, Finset.sum_const, nsmul_eq_mul]
      · simp only [hy, false_and, if_false, Finset.sum_const_zero]
    rw [Finset.sum_congr rfl fun y _ => inner y, ← Finset.sum_filter, s1, Finset.sum_const, nsmul_eq_mul]
    ring
  rw [Finset.sum_congr rfl e, Finset.sum_comm]
  calc _ = ∑ y ∈ U, ∑ z ∈ U, ∑ x ∈ U, (if y ∈ B x ∩ C x ∧ z ∈ A x ∩ B x then
        1 / (((A x ∩ (B x ∩ C x)).card : ℝ) * (B x).card) else 0) := by
        apply Finset.sum_congr rfl
        intro y _
        rw [Finset.sum_comm]
    _ ≤ ∑ y ∈ U, ∑ z ∈ U, (if z ∈ B y then 1 / ((B y).card : ℝ) else 0) :=
        Finset.sum_le_sum fun y hy => Finset.sum_le_sum fun z _ => pair_bound h k l y z hy
    _ = ∑ y ∈ U, (1 : ℝ) := by
        apply Finset.sum_congr rfl
        intro y hy
        rw [← Finset.sum_filter]
        have : U.filter (· ∈ B y) = B y := by
          ext z
          simp only [Finset.mem_filter, and_iff_right_iff_imp]
          exact fun hz => k.sub y hy hz
        rw [this, Finset.sum_const, nsmul_eq_mul]
        exact mul_one_div_cancel (k.pos hy).ne'
    _ = U.card := by simp

/-- Conditioning on more reduces the entropy. -/
theorem cond_mono (h : Cells U A) (k : Cells U B) (l : Cells U C) :
    cond U A (fun x => B x ∩ C x) ≤ cond U A B := by
  have hlog : 0 < Real.log 2 := Real.log_pos (by norm_num)
  rw [← sub_nonpos]
  unfold cond
  rw [← Finset.sum_sub_distrib]
  calc _ = ∑ x ∈ U, Real.log (((B x ∩ C x).card : ℝ) * (A x ∩ B x).card /
      (((A x ∩ (B x ∩ C x)).card : ℝ) * (B x).card)) / Real.log 2 := by
        apply Finset.sum_congr rfl
        intro x hx
        have p1 := (k.inter l).pos hx
        have p2 := (h.inter (k.inter l)).pos hx
        have p3 := k.pos hx
        have p4 := (h.inter k).pos hx
        unfold Real.logb
        rw [← sub_div, ← Real.log_div (by positivity) (by positivity)]
        congr 2
        field_simp
    _ ≤ ∑ x ∈ U, (((B x ∩ C x).card : ℝ) * (A x ∩ B x).card /
      (((A x ∩ (B x ∩ C x)).card : ℝ) * (B x).card) - 1) / Real.log 2 := by
        apply Finset.sum_le_sum
        intro x hx
        have p1 := (k.inter l).pos hx
        have p2 := (h.inter (k.inter l)).pos hx
        have p3 := k.pos hx
        have p4 := (h.inter k).pos hx
        apply div_le_div_of_nonneg_right _ hlog.le
        exact Real.log_le_sub_one_of_pos (by positivity)
    _ ≤ 0 := by
        rw [← Finset.sum_div]
        apply div_nonpos_of_nonpos_of_nonneg _ hlog.le
        rw [Finset.sum_sub_distrib]
        have := ratio_bound h k l
        simp only [Finset.sum_const, nsmul_eq_mul, mul_one]
        linarith

theorem cond_triangle (h : Cells U A) (k : Cells U B) (l : Cells U C) :
    cond U A C ≤ cond U A B + cond U B C := by
  have h1 : cond U A C ≤ cond U A (fun x => B x ∩ C x) + cond U B C := by
    unfold cond
    rw [← Finset.sum_add_distrib]
    apply Finset.sum_le_sum
    intro x hx
    have p1 := (k.inter l).pos hx
    have p2 := (h.inter (k.inter l)).pos hx
    have p3 := l.pos hx
    have p4 := (h.inter l).pos hx
    rw [← Real.logb_mul (by positivity) (by positivity)]
    apply Real.logb_le_logb_of_le (by norm_num) (by positivity)
    have hle : ((A x ∩ (B x ∩ C x)).card : ℝ) ≤ (A x ∩ C x).card := by
      exact_mod_cast Finset.card_le_card (Finset.inter_subset_inter_left Finset.inter_subset_right)
    calc ((C x).card : ℝ) / (A x ∩ C x).card ≤ (C x).card / (A x ∩ (B x ∩ C x)).card :=
          div_le_div_of_nonneg_left p3.le p2 hle
      _ = _ := by field_simp
  have h2 := cond_mono h k l
  linarith

/-- Entropy times the number of nodes. -/
noncomputable def ent (U : Finset Nat) (A : Nat → Finset Nat) : ℝ := ∑ x ∈ U, Real.logb 2 (U.card / (A x).card)

theorem ent_eq_cond (h : Cells U A) : ent U A = cond U A fun _ => U := by
  unfold ent cond
  apply Finset.sum_congr rfl
  intro x hx
  rw [Finset.inter_eq_left.2 (h.sub x hx)]

theorem ent_nonneg (h : Cells U A) : 0 ≤ ent U A := by
  rw [ent_eq_cond h]; exact cond_nonneg h (cells_all U)

theorem cond_eq (h : Cells U A) (k : Cells U B) : cond U A B = ent U (fun x => A x ∩ B x) - ent U B := by
  unfold cond ent
  rw [← Finset.sum_sub_distrib]
  apply Finset.sum_congr rfl
  intro x hx
  have p0 : (0 : ℝ) < U.card := (cells_all U).pos hx
  have p1 := (h.inter k).pos hx
  have p2 := k.pos hx
  rw [← Real.logb_div (by positivity) (by positivity)]
  congr 1
  field_simp

theorem cond_le_ent (h : Cells U A) (k : Cells U B) : cond U A B ≤ ent U A := by
  rw [ent_eq_cond h]
  have h1 := cond_mono h (cells_all U) k
  have : cond U A (fun x => U ∩ B x) = cond U A B := by
    unfold cond
    apply Finset.sum_congr rfl
    intro x hx
    beta_reduce
    rw [Finset.inter_eq_right.2 (k.sub x hx)]
  rwa [this] at h1

theorem ent_le (h : Cells U A) : ent U A ≤ U.card * Real.logb 2 U.card := by
  unfold ent
  rw [← nsmul_eq_mul, ← Finset.sum_const]
  apply Finset.sum_le_sum
  intro x hx
  have p0 : (0 : ℝ) < U.card := (cells_all U).pos hx
  have p1 := h.pos hx
  apply Real.logb_le_logb_of_le (by norm_num) (by positivity)
  rw [div_le_iff₀ p1]
  have : (1 : ℝ) ≤ (A x).card := by exact_mod_cast Finset.card_pos.2 ⟨x, h.mem x hx⟩
  nlinarith

theorem cond_zero (h : Cells U A) (k : Cells U B) (h0 : cond U A B = 0) {x : Nat} (hx : x ∈ U) : B x ⊆ A x := by
  have hn : ∀ x ∈ U, 0 ≤ Real.logb 2 (((B x).card : ℝ) / (A x ∩ B x).card) := by
    intro x hx
    apply Real.logb_nonneg (by norm_num)
    rw [le_div_iff₀ ((h.inter k).pos hx), one_mul]
    exact_mod_cast Finset.card_le_card Finset.inter_subset_right
  have hz := (Finset.sum_eq_zero_iff_of_nonneg hn).1 h0 x hx
  have p1 := (h.inter k).pos hx
  have p2 := k.pos hx
  have h1 : ((B x).card : ℝ) / (A x ∩ B x).card = 1 := by
    have := Real.logb_injOn_pos (b := 2) (by norm_num) (x₁ := ((B x).card : ℝ) / (A x ∩ B x).card) (x₂ := 1)
      (by simp only [Set.mem_Ioi]; positivity) (by simp) (by rw [hz, Real.logb_one])
    exact this
  rw [div_eq_one_iff_eq p1.ne'] at h1
  have h2 : (B x).card = (A x ∩ B x).card := by exact_mod_cast h1
  have := Finset.eq_of_subset_of_card_le (Finset.inter_subset_right : A x ∩ B x ⊆ B x) h2.le
  rw [← this]
  exact Finset.inter_subset_left

theorem cond_self (h : Cells U A) : cond U A A = 0 := by
  unfold cond
  apply Finset.sum_eq_zero
  intro x hx
  rw [Finset.inter_self, div_self (h.pos hx).ne', Real.logb_one]

theorem cond_congr {A' B' : Nat → Finset Nat} (h : ∀ x ∈ U, A x = A' x) (k : ∀ x ∈ U, B x = B' x) :
    cond U A B = cond U A' B' := by
  unfold cond
  apply Finset.sum_congr rfl
  intro x hx
  rw [h x hx, k x hx]

end

/-! ## Link with the list form -/

variable {U : Finset Nat} {cs ds : List (Finset Nat)}

theorem entropy_eq (h : Clustering U cs) : entropy U cs = ent U (cell cs) / U.card := by
  unfold entropy ent
  have e : (cs.map fun c => (c.card : ℝ) / U.card * Real.logb 2 (c.card / U.card)) =
      cs.map fun c => (c.card : ℝ) * (Real.logb 2 (c.card / U.card) / U.card) := by
    apply List.map_congr_left
    intro c _
    ring
  rw [e, h.sum fun c => Real.logb 2 (c.card / U.card) / U.card, ← Finset.sum_div, ← neg_div, ← Finset.sum_neg_distrib]
  congr 1
  apply Finset.sum_congr rfl
  intro x hx
  rw [← Real.logb_inv, inv_div]

theorem condEntropy_eq (h : Clustering U cs) (k : Clustering U ds) :
    condEntropy U cs ds = cond U (cell cs) (cell ds) / U.card := by
  unfold condEntropy
  rw [entropy_eq (h.meet k), entropy_eq k, cond_eq h.cells k.cells, sub_div]
  congr 2
  unfold ent
  apply Finset.sum_congr rfl
  intro x hx
  rw [cell_meet h k hx]

end Verif.Info
