import Verif.Noise.Cov

/-! # Sums over event times that have been moved -/

set_option linter.dupNamespace false
set_option linter.unusedSectionVars false

namespace Verif.Noise

open Verif.TempNet Verif.Trans Verif.Flow Verif.EndToEnd Verif.Decay Verif.Autocov Verif.Average Finset MeasureTheory

/-! ## Sorted lists -/

theorem countP_sorted {l : List ℝ} (h : l.Pairwise (· ≤ ·)) (t : ℝ) {k : ℕ} (hk : k < l.length) :
    l[k] ≤ t ↔ k < l.countP fun x => decide (x ≤ t) := by
  induction l generalizing k with
  | nil => simp at hk
  | cons x l ih =>
    have hl := (List.pairwise_cons.1 h).2
    have hx := (List.pairwise_cons.1 h).1
    rw [List.countP_cons]
    by_cases hxt : x ≤ t
    · simp only [hxt, decide_true, if_true]
      cases k with
      | zero => simpa using hxt
      | succ k =>
        rw [List.getElem_cons_succ, ih hl (by simpa using hk)]
        omega
    · have h0 : l.countP (fun x => decide (x ≤ t)) = 0 := by
        rw [List.countP_eq_zero]
        intro y hy
        simpa using (lt_of_not_ge hxt).trans_le (hx y hy)
      simp only [hxt, decide_false, Bool.false_eq_true, if_false, h0, add_zero, Nat.not_lt_zero, iff_false, not_le]
      cases k with
      | zero => simpa using hxt
      | succ k =>
        rw [List.getElem_cons_succ]
        exact (lt_of_not_ge hxt).trans_le (hx _ (List.getElem_mem _))

theorem countP_moved {ε : ℝ} {xs ys : List ℝ} (h : List.Forall₂ (fun x y => |x - y| ≤ ε) xs ys) (t : ℝ) :
    xs.countP (fun x => decide (x ≤ t)) ≤ ys.countP fun y => decide (y ≤ t + ε) := by
  induction h with
  | nil => simp
  | @cons x y xs ys h _ ih =>
    rw [List.countP_cons, List.countP_cons]
    have := abs_le.1 h
    by_cases hx : x ≤ t
    · have hy : y ≤ t + ε := by linarith
      simp only [hx, hy, decide_true, if_true]
      omega
    · simp only [hx, decide_false, Bool.false_eq_true, if_false]
      omega

/-- Sorted times move as little as the times. -/
theorem sorted_moved {ε : ℝ} {xs ys σ σ' : List ℝ} (h : List.Forall₂ (fun x y => |x - y| ≤ ε) xs ys) (hx : σ.Perm xs)
    (hy : σ'.Perm ys) (hσ : σ.Pairwise (· ≤ ·)) (hσ' : σ'.Pairwise (· ≤ ·)) {k : ℕ} (hk : k < σ.length) (hk' : k < σ'.length) :
    |σ[k] - σ'[k]| ≤ ε := by
  have h' : List.Forall₂ (fun y x => |y - x| ≤ ε) ys xs := by
    refine List.Forall₂.flip ?_
    exact h.imp fun x y hxy => by show |y - x| ≤ ε; rwa [abs_sub_comm]
  rw [abs_le]
  constructor
  · have a := (countP_sorted hσ σ[k] hk).1 le_rfl
    rw [hx.countP_eq] at a
    have b := a.trans_le (countP_moved h _)
    rw [← hy.countP_eq] at b
    have := (countP_sorted hσ' _ hk').2 b
    linarith
  · have a := (countP_sorted hσ' σ'[k] hk').1 le_rfl
    rw [hy.countP_eq] at a
    have b := a.trans_le (countP_moved h' _)
    rw [← hx.countP_eq] at b
    have := (countP_sorted hσ _ hk).2 b
    linarith

/-! ## Times that occur more than once do not matter -/

theorem lowerSum_cons (x y : ℝ) (l : List ℝ) (reverse : Bool) (f : ℝ → ℝ) :
    lowerSum (at' (x :: y :: l)) (l.length + 1) reverse f =
      (y - x) * f (if reverse then x else y) + lowerSum (at' (y :: l)) l.length reverse f := by
  unfold lowerSum
  rw [sum_range_succ', add_comm]
  rfl

theorem lowerSum_dedup (reverse : Bool) (f : ℝ → ℝ) : ∀ {σ times : List ℝ}, σ.Pairwise (· ≤ ·) → times.Pairwise (· < ·) →
    (∀ t, t ∈ σ ↔ t ∈ times) → lowerSum (at' σ) (σ.length - 1) reverse f = lowerSum (at' times) (times.length - 1) reverse f := by
  intro σ
  induction σ with
  | nil =>
    intro times _ _ hm
    have : times = [] := List.eq_nil_iff_forall_not_mem.2 fun t ht => by simpa using (hm t).2 ht
    rw [this]
  | cons x σ ih =>
    intro times hσ ht hm
    obtain ⟨hx, hσ'⟩ := List.pairwise_cons.1 hσ
    cases times with
    | nil => exact absurd ((hm x).1 (by simp)) (by simp)
    | cons x' times =>
      obtain ⟨hx', ht'⟩ := List.pairwise_cons.1 ht
      have exx : x = x' := by
        refine le_antisymm ?_ ?_
        · rcases List.mem_cons.1 ((hm x').2 (by simp)) with h | h
          · exact h.ge
          · exact hx _ h
        · rcases List.mem_cons.1 ((hm x).1 (by simp)) with h | h
          · exact h.ge
          · exact (hx' _ h).le
      subst exx
      by_cases hmem : x ∈ σ
      · cases σ with
        | nil => simp at hmem
        | cons y σ =>
          have hy : y = x := by
            refine le_antisymm ?_ (hx y (by simp))
            rcases List.mem_cons.1 hmem with h | h
            · exact h.ge
            · exact (List.pairwise_cons.1 hσ').1 _ h
          subst hy
          have h2 := lowerSum_cons y y σ reverse f
          rw [sub_self, zero_mul, zero_add] at h2
          rw [show (y :: y :: σ).length - 1 = σ.length + 1 from by simp, h2]
          have := ih hσ' ht (fun t => by rw [← hm t]; simp)
          simpa using this
      · have hm' : ∀ t, t ∈ σ ↔ t ∈ times := by
          intro t
          have := hm t
          simp only [List.mem_cons] at this
          constructor
          · intro h
            rcases this.1 (.inr h) with rfl | h'
            · exact absurd h hmem
            · exact h'
          · intro h
            rcases this.2 (.inr h) with rfl | h'
            · exact absurd (hx' _ h) (lt_irrefl _)
            · exact h'
        have hih := ih hσ' ht' hm'
        cases σ with
        | nil =>
          have : times = [] := List.eq_nil_iff_forall_not_mem.2 fun t ht => by simpa using (hm' t).2 ht
          rw [this]
        | cons y σ =>
          cases times with
          | nil => exact absurd ((hm' y).1 (by simp)) (by simp)
          | cons y' times =>
            have eyy : y = y' := by
              refine le_antisymm ?_ ?_
              · rcases List.mem_cons.1 ((hm' y').2 (by simp)) with h | h
                · exact h.ge
                · exact (List.pairwise_cons.1 hσ').1 _ h
              · rcases List.mem_cons.1 ((hm' y).1 (by simp)) with h | h
                · exact h.ge
                · exact ((List.pairwise_cons.1 ht').1 _ h).le
            subst eyy
            rw [show (x :: y :: σ).length - 1 = σ.length + 1 from by simp,
              show (x :: y :: times).length - 1 = times.length + 1 from by simp, lowerSum_cons, lowerSum_cons]
            simp only [List.length_cons, Nat.add_sub_cancel] at hih
            rw [hih]

/-! ## Sums of matrices over two grids -/

/-- Total distance of two sums over grids whose times differ little. -/
theorem lowerSum_close {n : Nat} {τ τ' : ℕ → ℝ} {N : ℕ} (hτ : ∀ k < N, τ k ≤ τ (k + 1)) {ε : ℝ}
    (hε : ∀ k ≤ N, |τ k - τ' k| ≤ ε) (reverse : Bool) {c c' : ℝ → Mat ℝ} {κ M : ℝ}
    (hκ : ∀ k ≤ N, totalDist n (c (τ k)) (c' (τ' k)) ≤ κ) (hM : ∀ k ≤ N, totalDist n (c' (τ' k)) (fun _ _ => 0) ≤ M) :
    totalDist n (fun i j => lowerSum τ N reverse fun u => c u i j) (fun i j => lowerSum τ' N reverse fun u => c' u i j) ≤
      (τ N - τ 0) * κ + N * (2 * ε) * M := by
  let e : ℕ → ℕ := fun k => if reverse then k else k + 1
  have he : ∀ (σ : ℕ → ℝ) k, (if reverse then σ k else σ (k + 1)) = σ (e k) := by
    intro σ k
    cases reverse <;> rfl
  have heN : ∀ k < N, e k ≤ N := by
    intro k hk
    simp only [e]
    split <;> omega
  have hij : ∀ i j, |(lowerSum τ N reverse fun u => c u i j) - lowerSum τ' N reverse fun u => c' u i j| ≤
      ∑ k ∈ range N, ((τ (k + 1) - τ k) * |c (τ (e k)) i j - c' (τ' (e k)) i j| + 2 * ε * |c' (τ' (e k)) i j - 0|) := by
    intro i j
    unfold lowerSum
    rw [← sum_sub_distrib]
    refine (abs_sum_le_sum_abs _ _).trans (sum_le_sum fun k hk => ?_)
    have hk := mem_range.1 hk
    rw [he, he]
    have ee : (τ (k + 1) - τ k) * c (τ (e k)) i j - (τ' (k + 1) - τ' k) * c' (τ' (e k)) i j =
        (τ (k + 1) - τ k) * (c (τ (e k)) i j - c' (τ' (e k)) i j) +
          ((τ (k + 1) - τ' (k + 1)) - (τ k - τ' k)) * (c' (τ' (e k)) i j - 0) := by ring
    rw [ee]
    refine (abs_add_le _ _).trans (add_le_add (le_of_eq ?_) ?_)
    · rw [abs_mul, abs_of_nonneg (sub_nonneg.2 (hτ k hk))]
    · rw [abs_mul]
      refine mul_le_mul_of_nonneg_right ?_ (abs_nonneg _)
      have := abs_sub (τ (k + 1) - τ' (k + 1)) (τ k - τ' k)
      linarith [hε k hk.le, hε (k + 1) hk]
  have hsum : totalDist n (fun i j => lowerSum τ N reverse fun u => c u i j) (fun i j => lowerSum τ' N reverse fun u => c' u i j) ≤
      ∑ k ∈ range N, ((τ (k + 1) - τ k) * totalDist n (c (τ (e k))) (c' (τ' (e k))) +
        2 * ε * totalDist n (c' (τ' (e k))) fun _ _ => 0) := by
    unfold totalDist rowDist
    refine (sum_le_sum fun i _ => sum_le_sum fun j _ => hij i j).trans (le_of_eq ?_)
    have e1 : ∀ i ∈ range n, ∑ j ∈ range n, ∑ k ∈ range N,
        ((τ (k + 1) - τ k) * |c (τ (e k)) i j - c' (τ' (e k)) i j| + 2 * ε * |c' (τ' (e k)) i j - 0|) =
        ∑ k ∈ range N, ∑ j ∈ range n,
        ((τ (k + 1) - τ k) * |c (τ (e k)) i j - c' (τ' (e k)) i j| + 2 * ε * |c' (τ' (e k)) i j - 0|) := fun _ _ => sum_comm
    rw [sum_congr rfl e1, sum_comm]
    refine sum_congr rfl fun k _ => ?_
    simp only [mul_sum, ← sum_add_distrib]
  refine hsum.trans ?_
  have hlast : ∑ k ∈ range N, ((τ (k + 1) - τ k) * totalDist n (c (τ (e k))) (c' (τ' (e k))) +
        2 * ε * totalDist n (c' (τ' (e k))) fun _ _ => 0) ≤ ∑ k ∈ range N, ((τ (k + 1) - τ k) * κ + 2 * ε * M) := by
    refine sum_le_sum fun k hk => ?_
    have hk := mem_range.1 hk
    have hε0 : 0 ≤ ε := (abs_nonneg _).trans (hε 0 (Nat.zero_le _))
    exact add_le_add (mul_le_mul_of_nonneg_left (hκ _ (heN k hk)) (sub_nonneg.2 (hτ k hk)))
      (mul_le_mul_of_nonneg_left (hM _ (heN k hk)) (by linarith))
  refine hlast.trans (le_of_eq ?_)
  rw [sum_add_distrib, ← sum_mul, sum_gaps, sum_const, card_range, nsmul_eq_mul]
  ring

theorem lowerSum_small {n : Nat} {τ : ℕ → ℝ} {N : ℕ} (hτ : ∀ k < N, τ k ≤ τ (k + 1)) (reverse : Bool) {c : ℝ → Mat ℝ} {M : ℝ}
    (hM : ∀ k ≤ N, totalDist n (c (τ k)) (fun _ _ => 0) ≤ M) :
    totalDist n (fun i j => lowerSum τ N reverse fun u => c u i j) (fun _ _ => 0) ≤ (τ N - τ 0) * M := by
  have h := lowerSum_close (n := n) (ε := 0) (τ' := τ) (c' := fun _ _ _ => 0) (M := 0) hτ (by simp) reverse hM
    (fun k _ => by simp [totalDist, rowDist])
  refine le_trans (le_of_eq ?_) (h.trans (le_of_eq (by ring)))
  congr 1
  funext i j
  simp [lowerSum]

/-! ## Entries of the flow covariance -/

variable {L : Type} [LinearOrder L] {evs evs' : List (Event L ℝ)} {nodes : List L}

theorem flowCov_entry {times : List ℝ} (ht : TimesOf evs times) {scale : ℝ} {reverse : Bool} {P : ℝ → Mat ℝ}
    (hP : Walk nodes.length (1 / scale) (gen evs nodes) (at' times 0) (at' times (times.length - 1)) reverse P) {i j : Nat}
    (hi : i < nodes.length) (hj : j < nodes.length) :
    flowCov evs nodes times scale reverse i j =
      lowerSum (at' times) (times.length - 1) reverse (fun u => covAt nodes.length (fun _ => 1 / (nodes.length : ℝ)) (P u) i j) /
        (at' times (times.length - 1) - at' times 0) := by
  unfold flowCov
  set N := times.length - 1 with hN
  set Ms := (List.range N).map (walkStep evs nodes times scale) with hMs
  have hl : Ms.length = N := by simp [hMs]
  have hM : ∀ k (hk : k < Ms.length), EqOn nodes.length Ms[k] (move nodes.length (1 / scale)
      (gen evs nodes) (at' times k) (at' times (k + 1))) := by
    intro k hk
    simp only [hMs, List.getElem_map, List.getElem_range]
    exact EqOn.refl _ _
  have hsum : meanCov nodes.length (fun _ => 1 / (nodes.length : ℝ)) (flowSteps nodes.length reverse Ms times Ms.length) i j =
      (∑ k ∈ range N, (stepOf nodes.length reverse Ms times k).1 *
        covAt nodes.length (fun _ => 1 / (nodes.length : ℝ)) (stepOf nodes.length reverse Ms times k).2 i j) /
        ∑ k ∈ range N, (stepOf nodes.length reverse Ms times k).1 := by
    unfold meanCov
    rw [flowSteps_eq, List.map_map, List.map_map, ← list_sum_range, ← list_sum_range, hl]
    rfl
  rw [hsum]
  have hG := covers_grid (TimesOf.covers ht) nodes
  cases reverse
  · have hg := grid_fwd hG hP hl hM
    simp only [stepOf, Bool.false_eq_true, if_false]
    rw [← sum_gaps]
    unfold lowerSum
    refine congrArg₂ (· / ·) (sum_congr rfl fun k hk => ?_) (sum_congr rfl fun k _ => rfl)
    simp only [Bool.false_eq_true, if_false]
    rw [covAt_congr _ (hg (k + 1) (by have := mem_range.1 hk; omega)) i hi j hj]
    rfl
  · have hg := grid_bwd hG hP hl hM
    simp only [stepOf, if_true, hl]
    rw [← sum_gaps]
    unfold lowerSum
    simp only [if_true]
    rw [← sum_range_reflect (fun k => (at' times (k + 1) - at' times k) * covAt nodes.length _ (P (at' times k)) i j),
      ← sum_range_reflect (fun k => at' times (k + 1) - at' times k)]
    refine congrArg₂ (· / ·) (sum_congr rfl fun k hk => ?_) (sum_congr rfl fun k hk => ?_)
    · have hk := mem_range.1 hk
      rw [covAt_congr _ (hg (k + 1) (by omega)) i hi j hj]
      rw [show N - 1 - k + 1 = N - k from by omega, show N - 1 - k = N - (k + 1) from by omega,
        show N - k - 1 = N - (k + 1) from by omega]
      rfl
    · have hk := mem_range.1 hk
      rw [show N - 1 - k + 1 = N - k from by omega, show N - 1 - k = N - k - 1 from by omega]
      rfl

/-! ## How long moved contacts differ -/

theorem active_moved {s t s' t' u : ℝ} (h : ¬((s ≤ u ∧ u < t) ↔ (s' ≤ u ∧ u < t'))) : u ∈ Set.uIcc s s' ∪ Set.uIcc t t' := by
  by_contra hn
  simp only [Set.mem_union, Set.mem_uIcc, not_or, not_and_or, not_le] at hn
  obtain ⟨⟨a1, a2⟩, b1, b2⟩ := hn
  apply h
  have e1 : s ≤ u ↔ s' ≤ u := by
    constructor
    · intro hh; rcases a1 with a | a <;> linarith
    · intro hh; rcases a2 with a | a <;> linarith
  have e2 : u < t ↔ u < t' := by
    constructor
    · intro hh; rcases b2 with a | a <;> linarith
    · intro hh; rcases b1 with a | a <;> linarith
  rw [e1, e2]

theorem volume_uIcc_le {s s' ε : ℝ} (h : |s - s'| ≤ ε) : volume (Set.uIcc s s') ≤ ENNReal.ofReal ε := by
  rw [Real.volume_interval]
  apply ENNReal.ofReal_le_ofReal
  rwa [abs_sub_comm]

theorem moved_volume {ε : ℝ} (h : Shifted ε evs evs') :
    volume {u | ¬List.Forall₂ (fun e e' : Event L ℝ => (e.start ≤ u ∧ u < e.stop) ↔ (e'.start ≤ u ∧ u < e'.stop)) evs evs'} ≤
      evs.length * (2 * ENNReal.ofReal ε) := by
  unfold Shifted at h
  induction h with
  | nil => simp
  | @cons e e' l l' hd _ ih =>
    have hsub : {u | ¬List.Forall₂ (fun e e' : Event L ℝ => (e.start ≤ u ∧ u < e.stop) ↔ (e'.start ≤ u ∧ u < e'.stop)) (e :: l) (e' :: l')} ⊆
        (Set.uIcc e.start e'.start ∪ Set.uIcc e.stop e'.stop) ∪
          {u | ¬List.Forall₂ (fun e e' : Event L ℝ => (e.start ≤ u ∧ u < e.stop) ↔ (e'.start ≤ u ∧ u < e'.stop)) l l'} := by
      intro u hu
      by_cases hr : List.Forall₂ (fun e e' : Event L ℝ => (e.start ≤ u ∧ u < e.stop) ↔ (e'.start ≤ u ∧ u < e'.stop)) l l'
      · left
        apply active_moved
        intro hh
        exact hu (List.Forall₂.cons hh hr)
      · exact .inr hr
    refine (measure_mono hsub).trans ((measure_union_le _ _).trans ?_)
    have h1 : volume (Set.uIcc e.start e'.start ∪ Set.uIcc e.stop e'.stop) ≤ 2 * ENNReal.ofReal ε := by
      refine (measure_union_le _ _).trans ?_
      rw [two_mul]
      exact add_le_add (volume_uIcc_le hd.2.2.1) (volume_uIcc_le hd.2.2.2)
    refine (add_le_add h1 ih).trans (le_of_eq ?_)
    rw [List.length_cons]
    push_cast
    ring

theorem forall₂_mem_left {α β : Type} {R : α → β → Prop} {l : List α} {l' : List β} (h : List.Forall₂ R l l') {a : α} (ha : a ∈ l) :
    ∃ b ∈ l', R a b := by
  induction h with
  | nil => simp at ha
  | @cons x y l l' hd _ ih =>
    rcases List.mem_cons.1 ha with rfl | ha
    · exact ⟨y, by simp, hd⟩
    · obtain ⟨b, hb, hr⟩ := ih ha
      exact ⟨b, by simp [hb], hr⟩

theorem apart_moved {ε : ℝ} (h : Shifted ε evs evs') : apart evs evs' nodes ⊆
    {u | ¬List.Forall₂ (fun e e' : Event L ℝ => (e.start ≤ u ∧ u < e.stop) ↔ (e'.start ≤ u ∧ u < e'.stop)) evs evs'} := by
  rintro u ⟨i, j, hij⟩ hall
  apply hij
  have hb : List.Forall₂ (fun e e' : Event L ℝ => e.src = e'.src ∧ e.tgt = e'.tgt ∧
      ((e.start ≤ u ∧ u < e.stop) ↔ (e'.start ≤ u ∧ u < e'.stop))) evs evs' := by
    unfold Shifted at h
    clear hij
    induction h with
    | nil => exact .nil
    | @cons e e' l l' hd _ ih =>
      cases hall with
      | cons h1 h2 => exact .cons ⟨hd.1, hd.2.1, h1⟩ (ih h2)
  constructor
  · rintro ⟨e, he, h1, h2, h3⟩
    obtain ⟨e', he', r1, r2, r3⟩ := forall₂_mem_left hb he
    have := r3.1 ⟨h1, h2⟩
    exact ⟨e', he', this.1, this.2, by rw [← r1, ← r2]; exact h3⟩
  · rintro ⟨e', he', h1, h2, h3⟩
    obtain ⟨e, he, r1, r2, r3⟩ := forall₂_mem_left hb.flip he'
    have := r3.2 ⟨h1, h2⟩
    exact ⟨e, he, this.1, this.2, by rw [r1, r2]; exact h3⟩

theorem timeApart_moved {ε : ℝ} (hε : 0 ≤ ε) (h : Shifted ε evs evs') : timeApart evs evs' nodes ≤ 2 * ε * evs.length := by
  unfold timeApart
  have h1 := (measure_mono (μ := volume) (apart_moved (nodes := nodes) h)).trans (moved_volume h)
  have e : (evs.length : ENNReal) * (2 * ENNReal.ofReal ε) = ENNReal.ofReal (2 * ε * evs.length) := by
    rw [ENNReal.ofReal_mul (by linarith), ENNReal.ofReal_mul (by norm_num)]
    simp
    ring
  rw [e] at h1
  exact ENNReal.toReal_le_of_le_ofReal (by positivity) h1

end Verif.Noise
