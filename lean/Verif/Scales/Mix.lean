import Verif.Scales.Walk

/-!
# Walks that mix

A walk whose generator does not change and that can go from each node of a group to each other one
forgets where in the group it started.
-/

set_option linter.dupNamespace false
set_option linter.unusedSectionVars false

namespace Verif.Scales

open Verif.TempNet Verif.Trans Verif.Flow Verif.EndToEnd Verif.Average Verif.Groups Finset

variable {n : Nat} {A : Mat ℝ}

/-- Nodes that a chain of possible steps links. -/
def Conn (n : Nat) (A : Mat ℝ) : Nat → Nat → Prop := Relation.ReflTransGen fun i j => i < n ∧ j < n ∧ A i j < 0

theorem evo_pos (h : Lap n A) (hd : ∀ i < n, A i i ≤ 1) {i j : Nat} (hi : i < n) (hc : Conn n A i j) {t : ℝ} (ht : 0 < t) :
    0 < evo n A t i j := by
  induction hc generalizing t with
  | refl =>
    have := (evo_ge h hd ht.le hi hi).1
    rw [if_pos rfl] at this
    exact (Real.exp_pos _).trans_le this
  | tail _ hs ih =>
    rename_i a b _
    obtain ⟨ha, hb, hab⟩ := hs
    have hne : a ≠ b := by
      rintro rfl
      have := h.1 a ha
      rw [← add_sum_erase _ _ (mem_range.2 ha)] at this
      have h2 : ∑ k ∈ (range n).erase a, A a k ≤ 0 :=
        sum_nonpos fun k hk => h.2 a ha k (mem_range.1 (mem_of_mem_erase hk)) (ne_of_mem_erase hk).symm
      linarith
    have e := evo_add n A (t / 2) (t / 2) i hi b hb
    rw [add_halves] at e
    rw [← e]
    have h1 := ih (half_pos ht)
    have h2 := (evo_ge h hd (half_pos ht).le ha hb).2
    rw [if_neg hne, zero_sub] at h2
    have h3 : 0 < evo n A (t / 2) a b :=
      (mul_pos (Real.exp_pos _) (mul_pos (half_pos ht) (neg_pos.2 hab))).trans_le h2
    unfold mul
    refine (mul_pos h1 h3).trans_le (single_le_sum (f := fun k => evo n A (t / 2) i k * evo n A (t / 2) k b) (fun k hk => ?_) (mem_range.2 ha))
    have hst := evo_stoch h (half_pos ht).le
    exact mul_nonneg ((hst i hi).1 k (mem_range.1 hk)) ((hst k (mem_range.1 hk)).1 b hb)

variable {α : Type} {grp : Nat → α}

theorem evo_closed (hA : Closed n A grp) (t : ℝ) : Closed n (evo n A t) grp := by
  apply closed_expm
  intro i hi j hj h
  exact hA i hi j hj (right_ne_zero_of_mul h)

/-- A mean with some weight on one value. -/
theorem mean_bounds {p x : Nat → ℝ} {δ lo w : ℝ} {r : Nat} (hr : r < n) (hp : ∀ j < n, 0 ≤ p j) (hs : ∑ j ∈ range n, p j = 1)
    (hδ : δ ≤ p r) {C : Nat → Prop} (hC : ∀ j < n, p j ≠ 0 → C j) (hCr : C r) (hx : ∀ j < n, C j → lo ≤ x j ∧ x j ≤ lo + w) :
    δ * x r + (1 - δ) * lo ≤ ∑ j ∈ range n, p j * x j ∧ ∑ j ∈ range n, p j * x j ≤ δ * x r + (1 - δ) * lo + (1 - δ) * w := by
  have e : ∑ j ∈ range n, p j * x j - δ * x r = ∑ j ∈ range n, (p j - if j = r then δ else 0) * x j := by
    simp only [sub_mul, sum_sub_distrib, ite_mul, zero_mul]
    rw [sum_ite_eq' (range n) r, if_pos (mem_range.2 hr)]
  have e1 : ∀ c : ℝ, ∑ j ∈ range n, (p j - if j = r then δ else 0) * c = (1 - δ) * c := by
    intro c
    rw [← sum_mul, sum_sub_distrib, hs, sum_ite_eq' (range n) r, if_pos (mem_range.2 hr)]
  have hq : ∀ j < n, 0 ≤ p j - (if j = r then δ else 0) := by
    intro j hj
    split
    · rename_i h
      subst h
      linarith
    · linarith [hp j hj]
  have hz : ∀ j < n, ¬ C j → p j - (if j = r then δ else 0) = 0 := by
    intro j hj hc
    have : p j = 0 := by_contra fun h => hc (hC j hj h)
    rw [this, if_neg (fun e : j = r => hc (by rw [e]; exact hCr)), sub_zero]
  have h1 : (1 - δ) * lo ≤ ∑ j ∈ range n, (p j - if j = r then δ else 0) * x j := by
    rw [← e1 lo]
    refine sum_le_sum fun j hj => ?_
    have hj := mem_range.1 hj
    by_cases hc : C j
    · exact mul_le_mul_of_nonneg_left (hx j hj hc).1 (hq j hj)
    · rw [hz j hj hc]; simp
  have h2 : ∑ j ∈ range n, (p j - if j = r then δ else 0) * x j ≤ (1 - δ) * (lo + w) := by
    rw [← e1 (lo + w)]
    refine sum_le_sum fun j hj => ?_
    have hj := mem_range.1 hj
    by_cases hc : C j
    · exact mul_le_mul_of_nonneg_left (hx j hj hc).2 (hq j hj)
    · rw [hz j hj hc]; simp
  constructor <;> nlinarith

/-- The columns of the walk become flat on a group. -/
theorem evo_flat (h : Lap n A) (hA : Closed n A grp) {δ : ℝ} (hδ : ∀ i < n, ∀ j < n, grp i = grp j → δ ≤ evo n A 1 i j) (N : Nat) :
    ∀ t : ℝ, (N : ℝ) ≤ t → ∀ r < n, ∀ k < n, ∃ lo, ∀ i < n, grp i = grp r → lo ≤ evo n A t i k ∧ evo n A t i k ≤ lo + (1 - δ) ^ N := by
  induction N with
  | zero =>
    intro t ht r _ k hk
    refine ⟨0, fun i hi _ => ?_⟩
    have hst := evo_stoch h (t := t) (by simpa using ht)
    rw [pow_zero, zero_add]
    exact ⟨(hst i hi).1 k hk, stoch_le_one hst hi hk⟩
  | succ N ih =>
    intro t ht r hr k hk
    push_cast at ht
    obtain ⟨lo, hlo⟩ := ih (t - 1) (by linarith) r hr k hk
    refine ⟨δ * evo n A (t - 1) r k + (1 - δ) * lo, fun i hi hg => ?_⟩
    have e := evo_add n A 1 (t - 1) i hi k hk
    rw [show 1 + (t - 1) = t by ring] at e
    have hst := evo_stoch h (t := 1) (by norm_num)
    have := mean_bounds (p := fun j => evo n A 1 i j) (x := fun j => evo n A (t - 1) j k) (δ := δ) (lo := lo) (w := (1 - δ) ^ N)
      hr (hst i hi).1 (hst i hi).2 (hδ i hi r hr hg) (C := fun j => grp j = grp r)
      (fun j hj hne => (evo_closed hA 1 i hi j hj hne).symm.trans hg) rfl (fun j hj hc => hlo j hj hc)
    unfold mul at e
    rw [e, ← pow_succ'] at this
    exact this

theorem evo_least (h : Lap n A) (hA : Closed n A grp) {δ : ℝ} (hδ : ∀ i < n, ∀ j < n, grp i = grp j → δ ≤ evo n A 1 i j)
    {t : ℝ} (ht : 1 ≤ t) {i k : Nat} (hi : i < n) (hk : k < n) (hg : grp i = grp k) : δ ≤ evo n A t i k := by
  have e := evo_add n A (t - 1) 1 i hi k hk
  rw [show t - 1 + 1 = t by ring] at e
  have hst := evo_stoch h (t := t - 1) (by linarith)
  rw [← e]
  unfold mul
  calc δ = ∑ j ∈ range n, evo n A (t - 1) i j * δ := by rw [← sum_mul, (hst i hi).2, one_mul]
    _ ≤ _ := by
      refine sum_le_sum fun j hj => ?_
      have hj := mem_range.1 hj
      by_cases h0 : evo n A (t - 1) i j = 0
      · rw [h0]; simp
      · exact mul_le_mul_of_nonneg_left (hδ j hj k hk ((evo_closed hA _ i hi j hj h0).symm.trans hg)) ((hst i hi).1 j hj)

/-- After a long time, the start in a group hardly matters. -/
theorem evo_mix (h : Lap n A) (hA : Closed n A grp) (hp : ∀ i < n, ∀ j < n, grp i = grp j → 0 < evo n A 1 i j) {η : ℝ} (hη : 0 < η) :
    ∃ t0 : ℝ, 0 < t0 ∧ ∀ t : ℝ, t0 ≤ t → ∀ i < n, ∀ j < n, grp i = grp j → ∀ k < n, (1 - η) * evo n A t j k ≤ evo n A t i k := by
  classical
  obtain ⟨δ, hδ0, hδ⟩ : ∃ δ : ℝ, 0 < δ ∧ ∀ i < n, ∀ j < n, grp i = grp j → δ ≤ evo n A 1 i j := by
    set F := (range n ×ˢ range n).filter fun x => grp x.1 = grp x.2 with hF
    rcases F.eq_empty_or_nonempty with h0 | h0
    · refine ⟨1, one_pos, fun i hi j hj hg => ?_⟩
      have : (i, j) ∈ F := by rw [hF, mem_filter, mem_product]; exact ⟨⟨mem_range.2 hi, mem_range.2 hj⟩, hg⟩
      rw [h0] at this
      simp at this
    · obtain ⟨x, hx, hmin⟩ := exists_min_image F (fun x => evo n A 1 x.1 x.2) h0
      rw [hF, mem_filter, mem_product] at hx
      refine ⟨evo n A 1 x.1 x.2, hp _ (mem_range.1 hx.1.1) _ (mem_range.1 hx.1.2) hx.2, fun i hi j hj hg => ?_⟩
      exact hmin (i, j) (by rw [hF, mem_filter, mem_product]; exact ⟨⟨mem_range.2 hi, mem_range.2 hj⟩, hg⟩)
  obtain ⟨δ', hδ', hδ1, hle⟩ : ∃ δ' : ℝ, 0 < δ' ∧ δ' < 1 ∧ δ' ≤ δ := by
    refine ⟨min δ (1 / 2), lt_min hδ0 (by norm_num), (min_le_right _ _).trans_lt (by norm_num), min_le_left _ _⟩
  have hδ := fun i hi j hj hg => hle.trans (hδ i hi j hj hg)
  obtain ⟨N, hN⟩ := exists_pow_lt_of_lt_one (mul_pos hη hδ') (show 1 - δ' < 1 by linarith)
  refine ⟨N + 1, by positivity, fun t ht i hi j hj hg k hk => ?_⟩
  by_cases hk' : grp j = grp k
  · obtain ⟨lo, hlo⟩ := evo_flat h hA hδ N t (by linarith) i hi k hk
    have h1 := (hlo i hi rfl).1
    have h2 := (hlo j hj hg.symm).2
    have hN0 : (0 : ℝ) ≤ N := by positivity
    have h3 := mul_le_mul_of_nonneg_left (evo_least h hA hδ (t := t) (by linarith) hj hk hk') hη.le
    linarith
  · rw [(evo_closed hA t).zero hj hk hk', (evo_closed hA t).zero hi hk (fun e => hk' (hg.symm.trans e))]
    simp

/-- Number of nodes of the group of a node. -/
noncomputable def size (n : Nat) (grp : Nat → α) (i : Nat) : Nat := by
  classical
  exact ((range n).filter fun a => grp a = grp i).card

/-- The covariance of two nodes of a group in which the walk has almost mixed. -/
theorem cov_mix {T : Mat ℝ} (hT : Stoch n T) (hC : Closed n T grp) {η : ℝ} (hη : 0 < η) (hη1 : η < 1)
    (hm : ∀ i < n, ∀ j < n, grp i = grp j → ∀ k < n, (1 - η) * T j k ≤ T i k) {i j : Nat} (hi : i < n) (hj : j < n) (hg : grp i = grp j) :
    (1 - η) / (n * size n grp i) - 1 / (n : ℝ) ^ 2 ≤ covAt n (fun _ => 1 / (n : ℝ)) T i j ∧
      covAt n (fun _ => 1 / (n : ℝ)) T i j ≤ 1 / (n * size n grp i * (1 - η)) - 1 / (n : ℝ) ^ 2 := by
  classical
  obtain ⟨c, hc⟩ : ∃ c, c = size n grp i := ⟨_, rfl⟩
  have hn0 : (0 : ℝ) < n := by exact_mod_cast (by omega : 0 < n)
  have hc0 : (0 : ℝ) < c := by
    rw [hc]
    unfold size
    have : 0 < ((range n).filter fun a => grp a = grp i).card := card_pos.2 ⟨i, mem_filter.2 ⟨mem_range.2 hi, rfl⟩⟩
    exact_mod_cast this
  have hη' : 0 < 1 - η := by linarith
  rw [← hc]
  have hsum : ∀ k < n, grp k = grp i → ∑ a ∈ range n, T a k = ∑ a ∈ (range n).filter (fun a => grp a = grp i), T a k := by
    intro k hk hgk
    rw [sum_filter]
    refine sum_congr rfl fun a ha => ?_
    split
    · rfl
    · rename_i hne
      exact hC.zero (mem_range.1 ha) hk (fun e => hne (e.trans hgk))
  have hlow : ∀ k < n, grp k = grp i → c * ((1 - η) * T i k) / n ≤ after n (fun _ => 1 / (n : ℝ)) T k := by
    intro k hk hgk
    unfold after
    rw [← mul_sum, hsum k hk hgk, div_eq_inv_mul, one_div]
    refine mul_le_mul_of_nonneg_left ?_ (by positivity)
    rw [hc]
    unfold size
    rw [← nsmul_eq_mul]
    refine card_nsmul_le_sum _ _ _ fun a ha => ?_
    rw [mem_filter, mem_range] at ha
    exact hm a ha.1 i hi ha.2 k hk
  have hupp : ∀ k < n, grp k = grp i → (1 - η) * after n (fun _ => 1 / (n : ℝ)) T k ≤ c * T i k / n := by
    intro k hk hgk
    unfold after
    rw [← mul_sum, hsum k hk hgk, div_eq_inv_mul (↑c * T i k), one_div, mul_left_comm]
    refine mul_le_mul_of_nonneg_left ?_ (by positivity)
    rw [hc, mul_sum]
    unfold size
    rw [← nsmul_eq_mul]
    refine sum_le_card_nsmul _ _ _ fun a ha => ?_
    rw [mem_filter, mem_range] at ha
    exact hm i hi a ha.1 ha.2.symm k hk
  have hnn : ∀ a < n, ∀ b < n, 0 ≤ T a b := fun a ha => (hT a ha).1
  have hterm : ∀ k ∈ range n, T j k * ((1 - η) / (n * c)) ≤ (if after n (fun _ => 1 / (n : ℝ)) T k = 0 then 0 else
      (1 / (n : ℝ) * T i k) * (1 / (n : ℝ) * T j k) / after n (fun _ => 1 / (n : ℝ)) T k) ∧
      (if after n (fun _ => 1 / (n : ℝ)) T k = 0 then 0 else
      (1 / (n : ℝ) * T i k) * (1 / (n : ℝ) * T j k) / after n (fun _ => 1 / (n : ℝ)) T k) ≤ T j k * (1 / (n * c * (1 - η))) := by
    intro k hk
    have hk := mem_range.1 hk
    by_cases hgk : grp k = grp i
    · have hl := hlow k hk hgk
      have hu := hupp k hk hgk
      have hji := hm i hi j hj hg k hk
      have hij := hm j hj i hi hg.symm k hk
      obtain ⟨z, hz⟩ : ∃ z, z = after n (fun _ => 1 / (n : ℝ)) T k := ⟨_, rfl⟩
      rw [← hz] at hl hu ⊢
      have h0 := hnn i hi k hk
      have h1 := hnn j hj k hk
      rw [div_le_iff₀ hn0] at hl
      rw [le_div_iff₀ hn0] at hu
      have hz0 : 0 ≤ z := by
        by_contra hneg
        have : 0 ≤ c * ((1 - η) * T i k) := by positivity
        nlinarith
      split
      · rename_i e
        have h2 : c * ((1 - η) * T i k) ≤ 0 := by rw [e] at hl; linarith
        have h3 : T i k = 0 := by
          by_contra hne
          have : 0 < T i k := lt_of_le_of_ne h0 (Ne.symm hne)
          have : 0 < c * ((1 - η) * T i k) := by positivity
          linarith
        have h4 : T j k = 0 := by
          by_contra hne
          have : 0 < T j k := lt_of_le_of_ne h1 (Ne.symm hne)
          have : 0 < (1 - η) * T j k := by positivity
          linarith
        rw [h4]; simp
      · rename_i hne
        have hzp : 0 < z := lt_of_le_of_ne hz0 (Ne.symm hne)
        constructor
        · rw [le_div_iff₀ hzp]
          have e : 1 / (n : ℝ) * T i k * (1 / n * T j k) - T j k * ((1 - η) / (n * c)) * z =
              T j k / (n * n * c) * (c * T i k - (1 - η) * z * n) := by
            field_simp
          have : 0 ≤ T j k / (n * n * c) * (c * T i k - (1 - η) * z * n) :=
            mul_nonneg (by positivity) (by linarith)
          linarith
        · rw [div_le_iff₀ hzp]
          have e : T j k * (1 / (n * c * (1 - η))) * z - 1 / (n : ℝ) * T i k * (1 / n * T j k) =
              T j k / (n * n * c * (1 - η)) * (z * n - c * ((1 - η) * T i k)) := by
            field_simp
          have : 0 ≤ T j k / (n * n * c * (1 - η)) * (z * n - c * ((1 - η) * T i k)) :=
            mul_nonneg (by positivity) (by linarith)
          linarith
    · have h1 : T j k = 0 := hC.zero hj hk (fun e => hgk (e.symm.trans hg.symm))
      rw [h1]
      simp
  have e : (1 / (n : ℝ)) * (1 / n) = 1 / (n : ℝ) ^ 2 := by field_simp
  unfold covAt
  rw [e]
  constructor
  · refine sub_le_sub_right ?_ _
    have := sum_le_sum fun k hk => (hterm k hk).1
    rwa [← sum_mul, (hT j hj).2, one_mul] at this
  · refine sub_le_sub_right ?_ _
    have := sum_le_sum fun k hk => (hterm k hk).2
    rwa [← sum_mul, (hT j hj).2, one_mul] at this

end Verif.Scales
