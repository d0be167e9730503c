import Verif.Parties.Spec
import Verif.Clique.Lemmas

/-!
# Communities of groups that meet: the covariance
-/

set_option linter.dupNamespace false
set_option linter.unusedSectionVars false

namespace Verif.Parties

open Verif.TempNet Verif.Trans Verif.Flow Verif.EndToEnd Verif.Average Verif.Groups Verif.Noise Verif.Causal Verif.Local Verif.Clique Finset

variable {n : Nat} {I : Finset Nat}

theorem Mx_symm {c : ℝ} {i j : Nat} (hi : i ∈ I) (hj : j ∈ I) : Mx I c i j = Mx I c j i := by
  unfold Mx Pm
  rw [if_pos hi, if_pos hj]
  simp only [eq_comm]

/-- The columns of a block sum to one. -/
theorem Mx_sum {c : ℝ} {k : Nat} (hk : k ∈ I) : ∑ a ∈ I, Mx I c a k = 1 := by
  have hne : (I.card : ℝ) ≠ 0 := by
    have := Finset.card_pos.2 ⟨k, hk⟩
    exact_mod_cast this.ne'
  unfold Mx Pm
  simp only [if_pos hk]
  rw [sum_add_distrib, Finset.sum_ite_eq', if_pos hk, ← mul_sum, sum_sub_distrib, Finset.sum_ite_eq', if_pos hk, sum_const, nsmul_eq_mul]
  field_simp
  ring

/-- The covariance of two nodes of a block. -/
theorem cov_block (hI : I ⊆ range n) {P : Mat ℝ} {c : ℝ} (hP : ∀ i ∈ I, ∀ j < n, P i j = Mx I c i j)
    (hout : ∀ a < n, a ∉ I → ∀ k ∈ I, P a k = 0) {i j : Nat} (hi : i ∈ I) (hj : j ∈ I) :
    covAt n (fun _ => 1 / (n : ℝ)) P i j = 1 / n * Mx I (c + c) i j - 1 / (n : ℝ) ^ 2 := by
  have hin : i < n := mem_range.1 (hI hi)
  have hjn : j < n := mem_range.1 (hI hj)
  have hn : (n : ℝ) ≠ 0 := by
    have : 0 < n := by omega
    exact_mod_cast this.ne'
  have hafter : ∀ k ∈ I, after n (fun _ => 1 / (n : ℝ)) P k = 1 / n := by
    intro k hk
    unfold after
    rw [← mul_sum, ← Finset.sum_subset hI fun a ha hna => hout a (mem_range.1 ha) hna k hk,
      sum_congr rfl fun a ha => hP a ha k (mem_range.1 (hI hk)), Mx_sum hk, mul_one]
  have hsum : (∑ k ∈ range n, if after n (fun _ => 1 / (n : ℝ)) P k = 0 then 0 else
      (1 / (n : ℝ) * P i k) * (1 / n * P j k) / after n (fun _ => 1 / (n : ℝ)) P k) = 1 / n * mul n P P i j := by
    unfold mul
    rw [mul_sum]
    refine sum_congr rfl fun k hk => ?_
    by_cases hkI : k ∈ I
    · rw [hafter k hkI, if_neg (by positivity), hP j hj k (mem_range.1 hk), hP k hkI j hjn, Mx_symm hj hkI]
      field_simp
    · rw [hP i hi k (mem_range.1 hk), Mx_out hi hkI]
      simp
  unfold covAt
  rw [hsum, Mx_mul hI hi hjn (fun a ha => hP i hi a ha) hP]
  ring

variable {L : Type} [LinearOrder L] {evs : List (Event L ℝ)} {nodes : List L} {G : Finset L} {D : Set ℝ}

/-- No contact leads into or out of a group that meets. -/
theorem gen_closed (hm : Meets evs G D) (u : ℝ) :
    Closed nodes.length (gen evs nodes u) fun i => i ∈ places nodes G := by
  classical
  intro i hi j hj h
  by_cases hij : i = j
  · rw [hij]
  · have hc : InContact evs nodes u i j := by
      by_contra hn
      apply h
      unfold gen walkLaplacian
      simp [hij, hn]
    have h1 := (touch_contact hi hj).1 hc
    have h2 := (touch_contact hj hi).1 (contact_symm hc)
    dsimp only
    rw [eq_iff_iff, mem_places hi, mem_places hj]
    exact ⟨fun hx => ((hm _ hx u _).1 h1).2.1, fun hx => ((hm _ hx u _).1 h2).2.1⟩

theorem move_closed (hm : Meets evs G D) (u c : ℝ) :
    Closed nodes.length (expm nodes.length fun i j => c * gen evs nodes u i j) fun i => i ∈ places nodes G := by
  apply closed_expm
  intro i hi j hj h
  exact gen_closed hm u i hi j hj (right_ne_zero_of_mul h)

/-- The walk at the times of the grid. -/
theorem walk_at (hn : NodesOf evs nodes) (hG : ∀ x ∈ G, x ∈ nodes) (hk : 2 ≤ G.card) (hm : Meets evs G D) {ts : List ℝ}
    (hc : Covers evs ts) {rate : ℝ} {reverse : Bool} {P : ℝ → Mat ℝ}
    (hP : Walk nodes.length rate (gen evs nodes) (at' ts 0) (at' ts (ts.length - 1)) reverse P) {k : ℕ} (hkt : k ≤ ts.length - 1) :
    (∀ i ∈ places nodes G, ∀ j < nodes.length, P (at' ts k) i j = Mx (places nodes G) (rate * ((G.card : ℝ) / (G.card - 1)) *
      gap D (at' ts (if reverse then k else 0)) (at' ts (if reverse then ts.length - 1 else k))) i j) ∧
    Closed nodes.length (P (at' ts k)) fun i => i ∈ places nodes G := by
  have hI : places nodes G ⊆ range nodes.length := Finset.filter_subset _ _
  have hgr := covers_grid hc nodes
  have hmono : ∀ {a b : ℕ}, a ≤ b → b ≤ ts.length - 1 → at' ts a ≤ at' ts b := fun hab hb => grid_mono hgr.mono hab hb
  have hstart := hP.start
  cases reverse
  · simp only [Bool.false_eq_true, if_false] at hstart ⊢
    induction k with
    | zero =>
      refine ⟨fun i hi j hj => ?_, closed_congr hstart closed_eye⟩
      rw [hstart i (mem_range.1 (hI hi)) j hj, gap_self, mul_zero, Mx_zero]
    | succ k ih =>
      have m := hP.moves _ _ (hmono (Nat.zero_le k) (by omega)) (hmono (Nat.le_succ k) hkt) (hmono hkt le_rfl)
        (hgr.same (by omega : k < ts.length - 1) le_rfl le_rfl)
      simp only [Bool.false_eq_true, if_false] at m
      obtain ⟨i1, i2⟩ := ih (by omega)
      refine ⟨fun i hi j hj => ?_, closed_congr m (closed_mul i2 (move_closed hm _ _))⟩
      rw [m i (mem_range.1 (hI hi)) j hj, Mx_mul hI hi hj (i1 i hi) (step_block hn hG hk hm hc (by omega) rate), ← mul_add,
        gap_add D (hmono (Nat.zero_le k) (by omega)) (hmono (Nat.le_succ k) hkt)]
  · simp only [if_true] at hstart ⊢
    obtain ⟨d, hd⟩ : ∃ d, d = ts.length - 1 - k := ⟨_, rfl⟩
    induction d generalizing k with
    | zero =>
      obtain rfl : k = ts.length - 1 := by omega
      refine ⟨fun i hi j hj => ?_, closed_congr hstart closed_eye⟩
      rw [hstart i (mem_range.1 (hI hi)) j hj, gap_self, mul_zero, Mx_zero]
    | succ d ih =>
      have m := hP.moves _ _ (hmono (Nat.zero_le k) (by omega)) (hmono (Nat.le_succ k) (by omega)) (hmono (by omega : k + 1 ≤ _) le_rfl)
        (hgr.same (by omega : k < ts.length - 1) le_rfl le_rfl)
      simp only [if_true] at m
      obtain ⟨i1, i2⟩ := ih (k := k + 1) (by omega) (by omega)
      refine ⟨fun i hi j hj => ?_, closed_congr m (closed_mul i2 (move_closed hm _ _))⟩
      rw [m i (mem_range.1 (hI hi)) j hj, Mx_mul hI hi hj (i1 i hi) (step_block hn hG hk hm hc (by omega) rate), ← mul_add,
        add_comm (gap D _ _), gap_add D (hmono (Nat.le_succ k) (by omega)) (hmono (by omega : k + 1 ≤ _) le_rfl)]

end Verif.Parties
