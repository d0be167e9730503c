import Verif.FloatFlow.Props
import Verif.Louvain.Spec

/-!
# C109: given transition matrices, and the stability of partitions
-/

set_option linter.unusedSectionVars false

namespace Verif.FloatFlow

open Verif.Flow (massAt gram gsum wsum meanCov covAt after flowSteps getD_get)
open Verif.Trans (prod eye)
open Verif.Louvain (pairStability)
open Verif.Partition (Part)

variable {K : Type} [Field K] [LinearOrder K] [IsStrictOrderedRing K]
variable {u lo hi δ : K} {o : Ops K} {n : Nat} {p : Nat → K}

/-- **C109** for transition matrices that are given (`T_list`): the number of roundings does not
grow with the product of the number of steps and the number of nodes. -/
theorem C109_given_partial (hr : Rounds u lo hi o) (reverse : Bool) {Ts : List (Mat K)} (hne : Ts ≠ [])
    (hroom : Roomy u lo hi δ (5 * n + 2 * Ts.length + 6)) {ts : List K} (hts : ts.Pairwise (· < ·))
    (hl : ts.length = Ts.length + 1)
    (hmod : ModerateFlow δ n p [] (givenSteps reverse Ts ts Ts.length)) (ks : List Nat) :
    ∃ J : Nat → Mat K, iList o n p Ts (if reverse then ts.reverse else ts) ks =
        ((List.range' 1 Ts.length).filter fun m => decide (m ∈ ks)).map J ∧
      ∀ m, 1 ≤ m → m ≤ Ts.length → ∀ i < n, ∀ j < n,
        let cov := meanCov n p (givenSteps reverse Ts ts m) i j
        |J m i j - cov| ≤ ((1 - u)⁻¹ ^ (5 * n + 2 * m + 7) - 1) * (cov + 2 * (p i * p j)) + u * lo := by
  obtain ⟨r1, r2, r3, r4, r5, r6, r7⟩ := hroom
  have hR : Room u lo hi δ (5 * n + 2 * Ts.length + 6) := ⟨r1, r2, r3, r4, r5, r6, r7⟩
  have hflow : ∀ k < Ts.length, (0 < gapAt reverse ts Ts.length k ∧ Moderate δ (gapAt reverse ts Ts.length k)) ∧
      ∀ i < n, ∀ j < n, 0 ≤ Ts.getD k eye i j ∧ Moderate δ (Ts.getD k eye i j) := by
    intro k hk
    apply hmod.flow (gapAt reverse ts Ts.length k, Ts.getD k eye)
    exact List.mem_map.2 ⟨k, List.mem_range.2 hk, rfl⟩
  have hpos : 1 ≤ Ts.length := List.length_pos_iff.2 hne
  have hN : δ * (Ts.length : K) ≤ 1 := by
    have := hmod.number
    simpa [givenSteps] using this
  obtain ⟨J, hJ, hval⟩ := core hr (δ := δ) (n := n) (p := p) (L := fun m => 3 * 0 + 5 * n + 2 * m + 6) (N := Ts.length)
    (fun m hm1 hm => hR.mono (by omega)) hmod.nodes hN
    (fun i hi => ⟨(hmod.start i hi).1, (hmod.start i hi).2.toIn⟩) reverse hts hl
    (fun k hk => (hflow k hk).1.2.toIn) hpos rfl
    (fun k => Ts.getD k eye) (fun _ => 0)
    (fun m k hk hkm hm i hi j hj => by
      have := ((hflow k hk).2 i hi j hj).1
      rw [getD_get _ _ hk] at this ⊢
      exact App.refl hR.r1 hR.r0 this)
    (fun k hk i hi j hj => ((hflow k hk).2 i hi j hj).2.toIn) (fun m => rfl) ks
  refine ⟨J, hJ, ?_⟩
  intro m hm1 hm i hi j hj cov
  have := hval m hm1 hm i hi j hj
  rw [show 5 * n + 2 * m + 7 = 3 * 0 + 5 * n + 2 * m + 6 + 1 by omega]
  exact this

/-! ## All entries together -/

theorem covAt_total {T : Mat K} {R S : K} (hp : ∀ i < n, 0 ≤ p i) (hT : ∀ i < n, ∀ j < n, 0 ≤ T i j)
    (hS : ∑ i ∈ Finset.range n, p i ≤ S) (hR : ∀ i < n, ∑ j ∈ Finset.range n, T i j ≤ R) (hR0 : 0 ≤ R) :
    ∑ i ∈ Finset.range n, ∑ j ∈ Finset.range n, covAt n p T i j ≤ R * S - (∑ i ∈ Finset.range n, p i) ^ 2 := by
  have e : ∀ k ∈ Finset.range n, (∑ i ∈ Finset.range n, ∑ j ∈ Finset.range n,
      (if after n p T k = 0 then 0 else (p i * T i k) * (p j * T j k) / after n p T k)) = after n p T k := by
    intro k _
    by_cases h0 : after n p T k = 0
    · simp [h0]
    · simp only [h0, if_false]
      have : ∀ i ∈ Finset.range n, ∑ j ∈ Finset.range n, (p i * T i k) * (p j * T j k) / after n p T k = p i * T i k := by
        intro i _
        rw [← Finset.sum_div, ← Finset.mul_sum]
        show p i * T i k * after n p T k / after n p T k = _
        rw [mul_div_assoc, div_self h0, mul_one]
      rw [Finset.sum_congr rfl this]
      rfl
  have e1 : ∑ i ∈ Finset.range n, ∑ j ∈ Finset.range n, covAt n p T i j =
      ∑ k ∈ Finset.range n, after n p T k - (∑ i ∈ Finset.range n, p i) ^ 2 := by
    unfold covAt
    simp only [Finset.sum_sub_distrib]
    congr 1
    · have : ∀ i ∈ Finset.range n, (∑ j ∈ Finset.range n, ∑ k ∈ Finset.range n,
          (if after n p T k = 0 then 0 else (p i * T i k) * (p j * T j k) / after n p T k)) =
          ∑ k ∈ Finset.range n, ∑ j ∈ Finset.range n,
          (if after n p T k = 0 then 0 else (p i * T i k) * (p j * T j k) / after n p T k) := fun i _ => Finset.sum_comm
      rw [Finset.sum_congr rfl this, Finset.sum_comm]
      exact Finset.sum_congr rfl e
    · rw [pow_two, Finset.sum_mul_sum]
  rw [e1]
  have e2 : ∑ k ∈ Finset.range n, after n p T k = ∑ i ∈ Finset.range n, p i * ∑ k ∈ Finset.range n, T i k := by
    unfold after
    rw [Finset.sum_comm]
    exact Finset.sum_congr rfl fun i _ => (Finset.mul_sum _ _ _).symm
  have h1 : ∑ k ∈ Finset.range n, after n p T k ≤ R * S := by
    rw [e2]
    calc ∑ i ∈ Finset.range n, p i * ∑ k ∈ Finset.range n, T i k ≤ ∑ i ∈ Finset.range n, p i * R :=
          Finset.sum_le_sum fun i hi => mul_le_mul_of_nonneg_left (hR i (Finset.mem_range.1 hi)) (hp i (Finset.mem_range.1 hi))
      _ = R * ∑ i ∈ Finset.range n, p i := by rw [← Finset.sum_mul, mul_comm]
      _ ≤ R * S := mul_le_mul_of_nonneg_left hS hR0
  linarith

theorem meanCov_total {l : List (K × Mat K)} {R S : K} (hp : ∀ i < n, 0 ≤ p i)
    (hl : ∀ e ∈ l, 0 < e.1 ∧ ∀ i < n, ∀ j < n, 0 ≤ e.2 i j) (hne : l ≠ [])
    (hS : ∑ i ∈ Finset.range n, p i ≤ S) (hR : ∀ e ∈ l, ∀ i < n, ∑ j ∈ Finset.range n, e.2 i j ≤ R) (hR0 : 0 ≤ R) :
    ∑ i ∈ Finset.range n, ∑ j ∈ Finset.range n, meanCov n p l i j ≤ R * S - (∑ i ∈ Finset.range n, p i) ^ 2 := by
  set C := R * S - (∑ i ∈ Finset.range n, p i) ^ 2 with hC
  have key : ∀ l : List (K × Mat K), (∀ e ∈ l, 0 < e.1 ∧ ∀ i < n, ∀ j < n, 0 ≤ e.2 i j) →
      (∀ e ∈ l, ∀ i < n, ∑ j ∈ Finset.range n, e.2 i j ≤ R) →
      ∑ i ∈ Finset.range n, ∑ j ∈ Finset.range n, (l.map fun e => e.1 * covAt n p e.2 i j).sum ≤
        C * (l.map (·.1)).sum := by
    intro l hl hR
    induction l with
    | nil => simp
    | cons e l ih =>
      simp only [List.map_cons, List.sum_cons, Finset.sum_add_distrib]
      have h1 := ih (fun x hx => hl x (by simp [hx])) (fun x hx => hR x (by simp [hx]))
      have h2 := covAt_total hp (hl e (by simp)).2 hS (hR e (by simp)) hR0
      have h3 : ∑ i ∈ Finset.range n, ∑ j ∈ Finset.range n, e.1 * covAt n p e.2 i j =
          e.1 * ∑ i ∈ Finset.range n, ∑ j ∈ Finset.range n, covAt n p e.2 i j := by
        simp only [Finset.mul_sum]
      rw [h3]
      have h4 := mul_le_mul_of_nonneg_left h2 (hl e (by simp)).1.le
      rw [← hC] at h4
      linarith
  have hW : 0 < (l.map (·.1)).sum := by
    obtain ⟨e, r, rfl⟩ := List.exists_cons_of_ne_nil hne
    rw [List.map_cons, List.sum_cons]
    have h1 := (hl e (by simp)).1
    have : 0 ≤ (r.map (·.1)).sum := List.sum_nonneg fun x hx => by
      obtain ⟨y, hy, rfl⟩ := List.mem_map.1 hx
      exact (hl y (by simp [hy])).1.le
    linarith
  unfold meanCov
  simp only [← Finset.sum_div]
  rw [div_le_iff₀ hW]
  exact key l hl hR

theorem meanCov_ge {l : List (K × Mat K)} (hp : ∀ i < n, 0 ≤ p i)
    (hl : ∀ e ∈ l, 0 < e.1 ∧ ∀ i < n, ∀ j < n, 0 ≤ e.2 i j) {i j : Nat} (hi : i < n) (hj : j < n) :
    -(p i * p j) ≤ meanCov n p l i j := by
  have hc : ∀ e ∈ l, -(p i * p j) ≤ covAt n p e.2 i j := by
    intro e he
    unfold covAt
    have : 0 ≤ ∑ k ∈ Finset.range n,
        (if after n p e.2 k = 0 then 0 else (p i * e.2 i k) * (p j * e.2 j k) / after n p e.2 k) := by
      refine Finset.sum_nonneg fun k hk => ?_
      have hk := Finset.mem_range.1 hk
      split
      · exact le_rfl
      · refine div_nonneg (mul_nonneg (mul_nonneg (hp i hi) ((hl e he).2 i hi k hk))
          (mul_nonneg (hp j hj) ((hl e he).2 j hj k hk))) ?_
        exact Finset.sum_nonneg fun x hx => mul_nonneg (hp x (Finset.mem_range.1 hx))
          ((hl e he).2 x (Finset.mem_range.1 hx) k hk)
    linarith
  have key : ∀ l : List (K × Mat K), (∀ e ∈ l, 0 < e.1) → (∀ e ∈ l, -(p i * p j) ≤ covAt n p e.2 i j) →
      -(p i * p j) * (l.map (·.1)).sum ≤ (l.map fun e => e.1 * covAt n p e.2 i j).sum := by
    intro l h1 h2
    induction l with
    | nil => simp
    | cons e l ih =>
      simp only [List.map_cons, List.sum_cons]
      have a := ih (fun x hx => h1 x (by simp [hx])) (fun x hx => h2 x (by simp [hx]))
      have b := mul_le_mul_of_nonneg_left (h2 e (by simp)) (h1 e (by simp)).le
      linarith
  have hW : 0 ≤ (l.map (·.1)).sum := List.sum_nonneg fun x hx => by
    obtain ⟨y, hy, rfl⟩ := List.mem_map.1 hx
    exact (hl y hy).1.le
  have hpp := mul_nonneg (hp i hi) (hp j hj)
  unfold meanCov
  rcases hW.eq_or_lt with h | h
  · rw [← h, div_zero]
    linarith
  · rw [le_div_iff₀ h]
    exact key l (fun e he => (hl e he).1) hc

/-- **C109** for the value that is optimised: the stability of every partition, taken with the
computed covariance, differs from its exact value by at most the given bound.  `R` bounds the sums
of the rows of the transition matrices, `S` the sum of the probabilities; both are one up to the
rounding of the input. -/
theorem C109_stability_partial (hr : Rounds u lo hi o) (reverse : Bool) {Ms : List (Mat K)} (hne : Ms ≠ [])
    (hroom : Roomy u lo hi δ (roundings n Ms.length)) {ts : List K} (hts : ts.Pairwise (· < ·))
    (hl : ts.length = Ms.length + 1)
    (hmod : ModerateFlow δ n p Ms (flowSteps n reverse Ms ts Ms.length)) {R S : K} (hR0 : 0 ≤ R)
    (hS : ∑ i ∈ Finset.range n, p i ≤ S)
    (hR : ∀ e ∈ flowSteps n reverse Ms ts Ms.length, ∀ i < n, ∑ j ∈ Finset.range n, e.2 i j ≤ R) (ks : List Nat) :
    ∃ Ts, tList o n reverse Ms = some Ts ∧ ∃ J : Nat → Mat K,
      iList o n p Ts (if reverse then ts.reverse else ts) ks =
        ((List.range' 1 Ms.length).filter fun m => decide (m ∈ ks)).map J ∧
      ∀ m, 1 ≤ m → m ≤ Ms.length → ∀ q : Part, q.numNodes = n →
        |pairStability (J m) q - pairStability (meanCov n p (flowSteps n reverse Ms ts m)) q| ≤
          ((1 - u)⁻¹ ^ (roundings n m + 1) - 1) * (R * S + S ^ 2) + (n : K) ^ 2 * (u * lo) := by
  classical
  obtain ⟨Ts, hTs, J, hJ, hval⟩ := C109_error_partial hr reverse hne hroom hts hl hmod ks
  refine ⟨Ts, hTs, J, hJ, ?_⟩
  intro m hm1 hm q hq
  obtain ⟨r1, r2, r3, r4, r5, r6, r7⟩ := hroom
  set c := (1 - u)⁻¹ ^ (roundings n m + 1) - 1 with hc
  have hc0 : 0 ≤ c := by
    have : 1 ≤ (1 - u)⁻¹ := (one_le_inv₀ (by linarith)).2 (by linarith)
    have := one_le_pow₀ this (n := roundings n m + 1)
    linarith
  set cov := meanCov n p (flowSteps n reverse Ms ts m) with hcov
  have hsub : ∀ e ∈ flowSteps n reverse Ms ts m, e ∈ flowSteps n reverse Ms ts Ms.length := by
    intro e he
    rw [flowSteps_eq] at he ⊢
    obtain ⟨k, hk, rfl⟩ := List.mem_map.1 he
    exact List.mem_map.2 ⟨k, List.mem_range.2 ((List.mem_range.1 hk).trans_le hm), rfl⟩
  have hp0 : ∀ i < n, 0 ≤ p i := fun i hi => (hmod.start i hi).1
  have htot := meanCov_total hp0 (l := flowSteps n reverse Ms ts m)
    (fun e he => ⟨(hmod.flow e (hsub e he)).1.1, fun i hi j hj => ((hmod.flow e (hsub e he)).2 i hi j hj).1⟩)
    (by rw [flowSteps_eq]; exact List.length_pos_iff.1 (by simp; omega)) hS (fun e he => hR e (hsub e he)) hR0
  rw [← hcov] at htot
  have h1 : |pairStability (J m) q - pairStability cov q| ≤
      ∑ i ∈ Finset.range n, ∑ j ∈ Finset.range n, |J m i j - cov i j| := by
    unfold pairStability
    rw [hq, ← Finset.sum_sub_distrib]
    refine (Finset.abs_sum_le_sum_abs _ _).trans (Finset.sum_le_sum fun i _ => ?_)
    rw [← Finset.sum_sub_distrib]
    refine (Finset.abs_sum_le_sum_abs _ _).trans (Finset.sum_le_sum fun j _ => ?_)
    split
    · exact le_rfl
    · rw [sub_self, abs_zero]
      exact abs_nonneg _
  have h2 : ∑ i ∈ Finset.range n, ∑ j ∈ Finset.range n, |J m i j - cov i j| ≤
      ∑ i ∈ Finset.range n, ∑ j ∈ Finset.range n, (c * (cov i j + 2 * (p i * p j)) + u * lo) := by
    refine Finset.sum_le_sum fun i hi => Finset.sum_le_sum fun j hj => ?_
    exact hval m hm1 hm i (Finset.mem_range.1 hi) j (Finset.mem_range.1 hj)
  have h3 : ∑ i ∈ Finset.range n, ∑ j ∈ Finset.range n, (c * (cov i j + 2 * (p i * p j)) + u * lo) =
      c * (∑ i ∈ Finset.range n, ∑ j ∈ Finset.range n, cov i j + 2 * (∑ i ∈ Finset.range n, p i) ^ 2) +
        (n : K) ^ 2 * (u * lo) := by
    simp only [Finset.sum_add_distrib, ← Finset.mul_sum, Finset.sum_const, Finset.card_range, nsmul_eq_mul]
    rw [pow_two (∑ i ∈ Finset.range n, p i), Finset.sum_mul]
    ring
  have hP0 : 0 ≤ ∑ i ∈ Finset.range n, p i := Finset.sum_nonneg fun i hi => hp0 i (Finset.mem_range.1 hi)
  have h4 : (∑ i ∈ Finset.range n, p i) ^ 2 ≤ S ^ 2 := pow_le_pow_left₀ hP0 hS 2
  have h5 := mul_le_mul_of_nonneg_left (show ∑ i ∈ Finset.range n, ∑ j ∈ Finset.range n, cov i j +
    2 * (∑ i ∈ Finset.range n, p i) ^ 2 ≤ R * S + S ^ 2 by linarith) hc0
  linarith

end Verif.FloatFlow
