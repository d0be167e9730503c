import Verif.Groups.Spec
import Verif.EndToEnd.Spec
import Verif.Flow.Lemmas

/-! # The walk on contacts stays among linked nodes -/

set_option linter.dupNamespace false
set_option linter.unusedSectionVars false

namespace Verif.Groups

open Verif.Partition Verif.TempNet Verif.Trans Verif.Flow Verif.EndToEnd Finset NormedSpace

section field

variable {K : Type} [Field K] [LinearOrder K] [IsStrictOrderedRing K] {α : Type} {n : Nat} {grp : Nat → α}

theorem Closed.zero {T : Mat K} (h : Closed n T grp) {i j : Nat} (hi : i < n) (hj : j < n) (hne : grp i ≠ grp j) : T i j = 0 :=
  by_contra fun h0 => hne (h i hi j hj h0)

theorem closed_congr {A B : Mat K} (h : EqOn n A B) (hB : Closed n B grp) : Closed n A grp := by
  intro i hi j hj hne
  rw [h i hi j hj] at hne
  exact hB i hi j hj hne

theorem closed_eye : Closed n (eye : Mat K) grp := by
  intro i _ j _ h
  unfold eye at h
  split at h
  · rename_i e; rw [e]
  · exact absurd rfl h

theorem closed_mul {A B : Mat K} (hA : Closed n A grp) (hB : Closed n B grp) : Closed n (mul n A B) grp := by
  intro i hi j hj h
  unfold mul at h
  obtain ⟨k, hk, hne⟩ := Finset.exists_ne_zero_of_sum_ne_zero h
  have hk := Finset.mem_range.1 hk
  exact (hA i hi k hk (left_ne_zero_of_mul hne)).trans (hB k hk j hj (right_ne_zero_of_mul hne))

theorem closed_prod {l : List (Mat K)} (h : ∀ A ∈ l, Closed n A grp) : Closed n (prod n l) grp := by
  induction l with
  | nil => exact closed_eye
  | cons A l ih => exact closed_mul (h A (by simp)) (ih fun B hB => h B (by simp [hB]))

/-- Covariance of nodes of two groups. -/
theorem covAt_apart {p : Nat → K} {T : Mat K} (hT : Closed n T grp) {i j : Nat} (hi : i < n) (hj : j < n)
    (hne : grp i ≠ grp j) : covAt n p T i j = -(p i * p j) := by
  unfold covAt
  rw [Finset.sum_eq_zero, zero_sub]
  intro k hk
  have hk := Finset.mem_range.1 hk
  split
  · rfl
  · by_cases h : grp i = grp k
    · rw [hT.zero hj hk (fun e => hne (h.trans e.symm))]
      simp
    · rw [hT.zero hi hk h]
      simp

/-- No covariance is smaller than that of nodes of two groups. -/
theorem covAt_lower {p : Nat → K} {T : Mat K} (hp : ∀ i < n, 0 ≤ p i) (hT : ∀ i < n, ∀ j < n, 0 ≤ T i j) {i j : Nat}
    (hi : i < n) (hj : j < n) : -(p i * p j) ≤ covAt n p T i j := by
  unfold covAt
  rw [← zero_sub]
  refine sub_le_sub_right (Finset.sum_nonneg fun k hk => ?_) _
  have hk := Finset.mem_range.1 hk
  split
  · exact le_rfl
  · refine div_nonneg (mul_nonneg (mul_nonneg (hp i hi) (hT i hi k hk)) (mul_nonneg (hp j hj) (hT j hj k hk))) ?_
    exact Finset.sum_nonneg fun l hl => mul_nonneg (hp l (Finset.mem_range.1 hl)) (hT l (Finset.mem_range.1 hl) k hk)

theorem sum_mul_const (l : List (K × Mat K)) (f : K × Mat K → K) {c : K} (h : ∀ e ∈ l, f e = c) :
    (l.map fun e => e.1 * f e).sum = (l.map (·.1)).sum * c := by
  induction l with
  | nil => simp
  | cons e l ih =>
    simp only [List.map_cons, List.sum_cons]
    rw [ih fun e he => h e (by simp [he]), h e (by simp), add_mul]

theorem sum_mul_lower (l : List (K × Mat K)) (f : K × Mat K → K) {c : K} (h0 : ∀ e ∈ l, 0 ≤ e.1) (h : ∀ e ∈ l, c ≤ f e) :
    (l.map (·.1)).sum * c ≤ (l.map fun e => e.1 * f e).sum := by
  induction l with
  | nil => simp
  | cons e l ih =>
    simp only [List.map_cons, List.sum_cons]
    rw [add_mul]
    exact add_le_add (mul_le_mul_of_nonneg_left (h e (by simp)) (h0 e (by simp)))
      (ih (fun e he => h0 e (by simp [he])) fun e he => h e (by simp [he]))

theorem sum_pos_of {l : List (K × Mat K)} (hne : l ≠ []) (h : ∀ e ∈ l, 0 < e.1) : 0 < (l.map (·.1)).sum := by
  apply List.sum_pos
  · intro x hx
    obtain ⟨e, he, rfl⟩ := List.mem_map.1 hx
    exact h e he
  · simpa using hne

theorem meanCov_apart {p : Nat → K} {l : List (K × Mat K)} (hne : l ≠ []) (hw : ∀ e ∈ l, 0 < e.1) (hT : ∀ e ∈ l, Closed n e.2 grp)
    {i j : Nat} (hi : i < n) (hj : j < n) (hg : grp i ≠ grp j) : meanCov n p l i j = -(p i * p j) := by
  unfold meanCov
  rw [sum_mul_const l (fun e => covAt n p e.2 i j) fun e he => covAt_apart (hT e he) hi hj hg,
    mul_div_cancel_left₀ _ (sum_pos_of hne hw).ne']

theorem meanCov_lower {p : Nat → K} {l : List (K × Mat K)} (hp : ∀ i < n, 0 ≤ p i) (hne : l ≠ []) (hw : ∀ e ∈ l, 0 < e.1)
    (hT : ∀ e ∈ l, ∀ i < n, ∀ j < n, 0 ≤ e.2 i j) {i j : Nat} (hi : i < n) (hj : j < n) :
    -(p i * p j) ≤ meanCov n p l i j := by
  unfold meanCov
  rw [le_div_iff₀ (sum_pos_of hne hw), mul_comm]
  exact sum_mul_lower l (fun e => covAt n p e.2 i j) (fun e he => (hw e he).le) fun e he => covAt_lower hp (hT e he) hi hj

end field

variable {α : Type} {n : Nat} {grp : Nat → α}

/-- The exponential of a matrix that stays in the groups stays in the groups. -/
theorem closed_expm {A : Mat ℝ} (h : Closed n A grp) : Closed n (expm n A) grp := by
  classical
  intro i hi j hj hne
  by_contra hg
  apply hne
  unfold expm
  rw [dif_pos ⟨hi, hj⟩]
  set M : Matrix (Fin n) (Fin n) ℝ := Matrix.of fun a b : Fin n => A a b with hM
  set D : Matrix (Fin n) (Fin n) ℝ := Matrix.diagonal fun a : Fin n => if grp a = grp i then (1 : ℝ) else 0 with hD
  have hc : Commute D M := by
    ext a b
    rw [hD, Matrix.diagonal_mul, Matrix.mul_diagonal]
    show _ * A a b = A a b * _
    by_cases hab : grp a = grp b
    · rw [hab, mul_comm]
    · rw [h.zero a.2 b.2 hab]; simp
  have he : Commute D (exp M) := hc.exp_right
  have := congrFun (congrFun he.eq ⟨i, hi⟩) ⟨j, hj⟩
  rw [hD, Matrix.diagonal_mul, Matrix.mul_diagonal] at this
  simp only [if_true, one_mul] at this
  rw [this, if_neg (fun e => hg e.symm), mul_zero]

variable {L : Type} [LinearOrder L]

theorem group_eq {evs : List (Event L ℝ)} {nodes : List L} {i j : Nat} {x y : L} (hx : nodes[i]? = some x) (hy : nodes[j]? = some y) :
    group evs nodes i = group evs nodes j ↔ Linked evs x y := by
  unfold group
  constructor
  · intro h
    have : y ∈ {z | ∃ w, nodes[i]? = some w ∧ Linked evs w z} := by
      rw [h]
      exact ⟨y, hy, .refl y⟩
    obtain ⟨w, hw, hl⟩ := this
    rw [hx] at hw
    cases hw
    exact hl
  · intro h
    ext z
    constructor
    · rintro ⟨w, hw, hl⟩
      rw [hx] at hw
      cases hw
      exact ⟨y, hy, (h.symm _ _).trans _ _ _ hl⟩
    · rintro ⟨w, hw, hl⟩
      rw [hy] at hw
      cases hw
      exact ⟨x, hx, h.trans _ _ _ hl⟩

theorem contact_group {evs : List (Event L ℝ)} {nodes : List L} {u : ℝ} {i j : Nat} (h : InContact evs nodes u i j) :
    group evs nodes i = group evs nodes j := by
  obtain ⟨e, he, -, -, ⟨h1, h2⟩ | ⟨h1, h2⟩⟩ := h
  · exact (group_eq h1 h2).2 (.rel _ _ ⟨e, he, rfl, rfl⟩)
  · exact ((group_eq h1 h2).2 (.rel _ _ ⟨e, he, rfl, rfl⟩)).symm

theorem laplacian_closed (evs : List (Event L ℝ)) (nodes : List L) (u : ℝ) :
    Closed nodes.length (walkLaplacian nodes.length (InContact evs nodes u) : Mat ℝ) (group evs nodes) := by
  classical
  intro i _ j _ h
  by_cases hij : i = j
  · rw [hij]
  · apply contact_group (u := u)
    by_contra hn
    apply h
    unfold walkLaplacian
    simp [hij, hn]

theorem walkStep_closed (evs : List (Event L ℝ)) (nodes : List L) (times : List ℝ) (scale : ℝ) (k : Nat) :
    Closed nodes.length (walkStep evs nodes times scale k) (group evs nodes) := by
  unfold walkStep
  apply closed_expm
  intro i hi j hj h
  exact laplacian_closed evs nodes _ i hi j hj (right_ne_zero_of_mul h)

theorem mem_flowSteps {K : Type} [Field K] [LinearOrder K] [IsStrictOrderedRing K] {n : Nat} {reverse : Bool} {Ms : List (Mat K)}
    {ts : List K} (hs : ts.Pairwise (· < ·)) {m : Nat} (hm : m ≤ Ms.length) (hl : ts.length = Ms.length + 1) {e : K × Mat K}
    (he : e ∈ flowSteps n reverse Ms ts m) : 0 < e.1 ∧ ∃ l : List (Mat K), (∀ A ∈ l, A ∈ Ms) ∧ e.2 = prod n l := by
  have lt : ∀ k, k + 1 < ts.length → ts.getD k 0 < ts.getD (k + 1) 0 := by
    intro k hk
    rw [List.getD_eq_getElem?_getD, List.getD_eq_getElem?_getD, List.getElem?_eq_getElem hk,
      List.getElem?_eq_getElem (by omega : k < ts.length)]
    exact List.pairwise_iff_getElem.1 hs k (k + 1) (by omega) hk (by omega)
  unfold flowSteps at he
  cases reverse
  · simp only [Bool.false_eq_true, if_false, List.mem_map, List.mem_range] at he
    obtain ⟨k, hk, rfl⟩ := he
    exact ⟨sub_pos.2 (lt k (by omega)), _, fun A hA => List.mem_of_mem_take hA, rfl⟩
  · simp only [if_true, List.mem_map, List.mem_range] at he
    obtain ⟨k, hk, rfl⟩ := he
    refine ⟨sub_pos.2 ?_, _, fun A hA => List.mem_reverse.1 (List.mem_of_mem_take hA), rfl⟩
    have := lt (Ms.length - k - 1) (by omega)
    rwa [show Ms.length - k - 1 + 1 = Ms.length - k from by omega] at this

theorem flowSteps_ne {K : Type} [Field K] [LinearOrder K] [IsStrictOrderedRing K] {n : Nat} {reverse : Bool} {Ms : List (Mat K)}
    {ts : List K} {m : Nat} (hm : 0 < m) : flowSteps n reverse Ms ts m ≠ [] := by
  unfold flowSteps
  cases reverse
  · simp; omega
  · simp; omega

/-- The flow covariance of labels that are not linked. -/
theorem flowCov_apart {evs : List (Event L ℝ)} {nodes : List L} {times : List ℝ} (hs : times.Pairwise (· < ·))
    (h2 : 2 ≤ times.length) (scale : ℝ) (reverse : Bool) {i j : Nat} (hi : i < nodes.length) (hj : j < nodes.length)
    (hg : group evs nodes i ≠ group evs nodes j) :
    flowCov evs nodes times scale reverse i j = -(1 / (nodes.length : ℝ) ^ 2) := by
  unfold flowCov
  set Ms := (List.range (times.length - 1)).map (walkStep evs nodes times scale) with hMs
  have hl : Ms.length = times.length - 1 := by simp [hMs]
  rw [meanCov_apart (flowSteps_ne (by omega)) (fun e he => (mem_flowSteps hs le_rfl (by omega) he).1) (grp := group evs nodes) ?_ hi hj hg]
  · rw [← sq, div_pow, one_pow]
  · intro e he
    obtain ⟨-, l, hl, e2⟩ := mem_flowSteps hs le_rfl (by omega) he
    rw [e2]
    apply closed_prod
    intro A hA
    obtain ⟨k, -, rfl⟩ := List.mem_map.1 (hl A hA)
    exact walkStep_closed evs nodes times scale k

end Verif.Groups
