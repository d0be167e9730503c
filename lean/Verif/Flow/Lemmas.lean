import Verif.Flow.Model
import Verif.Flow.Spec
import Verif.Trans.Lemmas
import Verif.Autocov.CovLemmas

/-!
# Lemmas about flow integrals
-/

set_option linter.dupNamespace false
set_option linter.unusedSectionVars false

namespace Verif.Flow

open Verif.Trans Verif.Autocov

variable {K : Type} [Field K] [LinearOrder K] [IsStrictOrderedRing K]

theorem getD_get {α : Type} (l : List α) (d : α) {k : Nat} (h : k < l.length) : l.getD k d = l[k] := by
  rw [List.getD_eq_getElem?_getD, List.getElem?_eq_getElem h, Option.getD_some]

/-! ## Sums along the flow -/

/-- `T diag(1/q) T^T`. -/
def gram (n : Nat) (p : Nat → K) (T : Mat K) : Mat K := fun i j =>
  ∑ k ∈ Finset.range n, T i k * invOrOne (massAt n p T) k * T j k

theorem gram_symm (n : Nat) (p : Nat → K) (T : Mat K) (i j : Nat) : gram n p T i j = gram n p T j i := by
  unfold gram
  apply Finset.sum_congr rfl
  intro k _
  ring

/-- Sum of the lengths. -/
def wsum (l : List (Mat K × K)) : K := (l.map (·.2)).sum

/-- Weighted sum of the products. -/
def gsum (n : Nat) (p : Nat → K) (l : List (Mat K × K)) : Mat K := fun i j =>
  (l.map fun e => gram n p e.1 i j * e.2).sum

theorem gsum_symm (n : Nat) (p : Nat → K) (l : List (Mat K × K)) (i j : Nat) : gsum n p l i j = gsum n p l j i := by
  unfold gsum
  simp only [gram_symm n p _ i j]

/-- No trimming, and a square root that is one. -/
def Exact (inp : Input K) : Prop :=
  inp.sparse = true → inp.rtol = 0 ∧ ∀ x : K, 0 ≤ x → inp.sqrt x * inp.sqrt x = x

theorem trim_zero (n : Nat) (A : Mat K) : trim n 0 A = A := by
  funext i j
  unfold trim
  rw [zero_mul]
  split
  · next h => exact (abs_eq_zero.1 (le_antisymm h (abs_nonneg _))).symm
  · rfl

theorem invOrOne_nonneg {q : Nat → K} {k : Nat} (h : 0 ≤ q k) : 0 ≤ invOrOne q k := by
  unfold invOrOne
  split
  · simp
  · exact one_div_nonneg.2 h

theorem stepMatrix_eq {inp : Input K} (hx : Exact inp) {p : Nat → K} {T : Mat K} (dt : K)
    (hq : ∀ k < inp.n, 0 ≤ massAt inp.n p T k) (i j : Nat) :
    stepMatrix inp p T dt i j =
      if (inp.sparse && inp.mkl && decide (j < i)) = true then 0 else gram inp.n p T i j * dt := by
  unfold stepMatrix
  cases hs : inp.sparse
  · simp only [Bool.false_eq_true, if_false, Bool.false_and]
    rfl
  · simp only [if_true, Bool.true_and]
    split
    · rfl
    · congr 1
      unfold gram
      apply Finset.sum_congr rfl
      intro k hk
      have h2 := (hx hs).2 _ (invOrOne_nonneg (hq k (Finset.mem_range.1 hk)))
      calc _ = T i k * (inp.sqrt (invOrOne (massAt inp.n p T) k) * inp.sqrt (invOrOne (massAt inp.n p T) k)) * T j k := by
            ring
        _ = _ := by rw [h2]

theorem loop_spec {inp : Input K} (hx : Exact inp) {p : Nat → K} (ks : List Nat) (l : List (Mat K × K))
    (hq : ∀ e ∈ l, ∀ k < inp.n, 0 ≤ massAt inp.n p e.1 k) :
    let s := l.zipIdx.foldl (step inp p ks) ⟨fun _ _ => 0, 0, []⟩
    (∀ i j, s.ipt i j = if (inp.sparse && inp.mkl && decide (j < i)) = true then 0 else gsum inp.n p l i j) ∧
    s.total = wsum l ∧
    s.out = ((List.range l.length).filter fun k => decide (k + 1 ∈ ks)).map fun k => fun i j =>
      p i * gsum inp.n p (l.take (k + 1)) i j * p j * (1 / wsum (l.take (k + 1))) := by
  induction l using List.reverseRecOn with
  | nil =>
    refine ⟨fun i j => ?_, rfl, rfl⟩
    show (0 : K) = _
    simp [gsum]
  | append_singleton l e ih =>
    have ih := ih fun e' he' => hq e' (by simp [he'])
    intro s
    set s0 := l.zipIdx.foldl (step inp p ks) ⟨fun _ _ => 0, 0, []⟩ with hs0
    obtain ⟨h1, h2, h3⟩ := ih
    have hs : s = step inp p ks s0 (e, l.length) := by
      show (l ++ [e]).zipIdx.foldl _ _ = _
      rw [List.zipIdx_append, List.foldl_append]
      simp [hs0]
    have hipt : ∀ i j, s.ipt i j =
        if (inp.sparse && inp.mkl && decide (j < i)) = true then 0 else gsum inp.n p (l ++ [e]) i j := by
      intro i j
      have hg : gsum inp.n p (l ++ [e]) i j = gsum inp.n p l i j + gram inp.n p e.1 i j * e.2 := by
        unfold gsum; simp
      have hsum : s.ipt i j = s0.ipt i j + stepMatrix inp p e.1 e.2 i j := by
        rw [hs]
        unfold step
        cases hsp : inp.sparse
        · simp
        · simp only [if_true]
          rw [(hx hsp).1, trim_zero, trim_zero]
      rw [hsum, h1, stepMatrix_eq hx e.2 (hq e (by simp)), hg]
      split <;> simp
    have htot : s.total = wsum (l ++ [e]) := by
      rw [hs]
      show s0.total + e.2 = _
      rw [h2]
      unfold wsum; simp
    refine ⟨hipt, htot, ?_⟩
    have hout : s.out = if l.length + 1 ∈ ks then s0.out ++ [stored inp p s.ipt s.total] else s0.out := by
      rw [hs]
      rfl
    have hstored : stored inp p s.ipt s.total = fun i j =>
        p i * gsum inp.n p (l ++ [e]) i j * p j * (1 / wsum (l ++ [e])) := by
      funext i j
      unfold stored
      rw [htot]
      by_cases hm : (inp.sparse && inp.mkl) = true
      · simp only [hm, if_true]
        rw [hipt i j, hipt j i]
        simp only [hm, Bool.true_and, decide_eq_true_eq]
        rcases Nat.lt_trichotomy i j with h | h | h
        · rw [if_neg (by omega), if_pos h, if_neg (by omega)]
          ring
        · subst h
          simp only [if_true]
          rw [hipt i i]
          simp only [hm, Bool.true_and, decide_eq_true_eq]
          rw [if_neg (by omega)]
          ring
        · rw [if_pos h, if_neg (by omega), if_neg (by omega), gsum_symm inp.n p _ j i]
          ring
      · simp only [hm, if_false, Bool.false_eq_true]
        rw [hipt i j]
        simp only [hm, Bool.false_and, Bool.false_eq_true, if_false]
    have htake : ∀ k < l.length, (l ++ [e]).take (k + 1) = l.take (k + 1) := by
      intro k hk
      rw [List.take_append_of_le_length (by omega)]
    rw [hout, hstored, h3, List.length_append, List.length_singleton, List.range_succ, List.filter_append,
      List.map_append]
    have hpre : (((List.range l.length).filter fun k => decide (k + 1 ∈ ks)).map fun k => fun i j =>
        p i * gsum inp.n p (l.take (k + 1)) i j * p j * (1 / wsum (l.take (k + 1)))) =
        (((List.range l.length).filter fun k => decide (k + 1 ∈ ks)).map fun k => fun i j =>
        p i * gsum inp.n p ((l ++ [e]).take (k + 1)) i j * p j * (1 / wsum ((l ++ [e]).take (k + 1)))) := by
      apply List.map_congr_left
      intro k hk
      rw [htake k (List.mem_range.1 (List.mem_filter.1 hk).1)]
    rw [hpre]
    by_cases hin : l.length + 1 ∈ ks
    · rw [if_pos hin, List.filter_cons, if_pos (by simpa using hin), List.filter_nil, List.map_singleton,
        List.take_of_length_le (by simp)]
    · rw [if_neg hin, List.filter_cons, if_neg (by simpa using hin), List.filter_nil, List.map_nil, List.append_nil]

theorem integral_spec {inp : Input K} (hx : Exact inp) {p : Nat → K} (ks : List Nat) (Ts : List (Mat K)) (ts : List K)
    (hq : ∀ T ∈ Ts, ∀ k < inp.n, 0 ≤ massAt inp.n p T k) :
    integral inp p Ts ts ks =
      ((List.range (min Ts.length (steps ts).length)).filter fun k => decide (k + 1 ∈ ks)).map fun k => fun i j =>
        p i * gsum inp.n p ((Ts.zip (steps ts)).take (k + 1)) i j * p j *
          (1 / wsum ((Ts.zip (steps ts)).take (k + 1))) := by
  have := (loop_spec hx ks (Ts.zip (steps ts)) fun e he => hq e.1 (List.of_mem_zip he).1).2.2
  rw [List.length_zip] at this
  exact this

/-! ## Covariances -/

theorem covAt_eq (n : Nat) {p : Nat → K} {T : Mat K} (hp : ∀ i < n, 0 ≤ p i) (hT : ∀ i < n, ∀ j < n, 0 ≤ T i j)
    {i j : Nat} (hi : i < n) : p i * gram n p T i j * p j - p i * p j = covAt n p T i j := by
  unfold covAt gram
  congr 1
  rw [Finset.mul_sum, Finset.sum_mul]
  apply Finset.sum_congr rfl
  intro k hk
  rw [Finset.mem_range] at hk
  have hm : massAt n p T k = after n p T k := rfl
  split
  · next h0 =>
    have := fwd_zero_mass n p (massAt n p T) T hp hT (fun _ _ => rfl) k hk (hm ▸ h0) i hi
    calc _ = (p i * T i k) * (invOrOne (massAt n p T) k * T j k * p j) := by ring
      _ = 0 := by rw [this, zero_mul]
  · next h0 =>
    unfold invOrOne
    rw [hm, if_neg h0]
    field_simp

theorem fwd_covAt (n : Nat) {p : Nat → K} {T : Mat K} (hp : ∀ i < n, 0 ≤ p i) (hT : ∀ i < n, ∀ j < n, 0 ≤ T i j)
    {i j : Nat} (hi : i < n) : fwd n p (after n p T) T i j = covAt n p T i j := by
  rw [← covAt_eq n hp hT hi]
  unfold fwd gram
  rw [Finset.mul_sum, Finset.sum_mul]
  congr 1
  apply Finset.sum_congr rfl
  intro k _
  show _ = p i * (T i k * invOrOne (after n p T) k * T j k) * p j
  ring

theorem covAt_covariance {n : Nat} {p : Nat → K} {T : Mat K} (hp : Distribution n p) (hT : Stoch n T) :
    Covariance n (covAt n p T) := by
  have h0 : ∀ i < n, ∀ j < n, 0 ≤ T i j := fun i hi => (hT i hi).1
  have h1 : ∀ i < n, ∑ j ∈ Finset.range n, T i j = 1 := fun i hi => (hT i hi).2
  refine ⟨?_, ?_, ?_⟩
  · intro i hi j hj
    rw [← fwd_covAt n hp.1 h0 hi, ← fwd_covAt n hp.1 h0 hj, fwd_symm]
  · intro i hi
    rw [← fwd_row_sum n p (after n p T) T hp.1 hp.2 h0 h1 (fun _ _ => rfl) i hi]
    apply Finset.sum_congr rfl
    intro j _
    rw [fwd_covAt n hp.1 h0 hi]
  · intro x
    have := fwd_psd n p (after n p T) T hp.1 hp.2 h0 h1 (fun _ _ => rfl) x
    refine this.trans (le_of_eq ?_)
    apply Finset.sum_congr rfl
    intro i hi
    apply Finset.sum_congr rfl
    intro j _
    rw [fwd_covAt n hp.1 h0 (Finset.mem_range.1 hi)]

theorem covAt_congr {n : Nat} (p : Nat → K) {A B : Mat K} (h : EqOn n A B) : EqOn n (covAt n p A) (covAt n p B) := by
  have ha : ∀ k < n, after n p A k = after n p B k := by
    intro k hk
    apply Finset.sum_congr rfl
    intro i hi
    rw [h i (Finset.mem_range.1 hi) k hk]
  intro i hi j hj
  unfold covAt
  congr 1
  apply Finset.sum_congr rfl
  intro k hk
  rw [Finset.mem_range] at hk
  rw [ha k hk, h i hi k hk, h j hj k hk]

/-- Nonnegative combinations of covariances. -/
theorem meanCov_covariance {n : Nat} {p : Nat → K} (hp : Distribution n p) {l : List (K × Mat K)}
    (hl : ∀ e ∈ l, 0 ≤ e.1 ∧ Stoch n e.2) : Covariance n (meanCov n p l) := by
  have hW : 0 ≤ (l.map (·.1)).sum := List.sum_nonneg (by
    intro x hx
    obtain ⟨e, he, rfl⟩ := List.mem_map.1 hx
    exact (hl e he).1)
  have key : Covariance n (fun i j => (l.map fun e => e.1 * covAt n p e.2 i j).sum) := by
    induction l with
    | nil => exact ⟨fun _ _ _ _ => rfl, fun i _ => by simp, fun x => by simp⟩
    | cons e l ih =>
      have hW' : 0 ≤ (l.map (·.1)).sum := List.sum_nonneg (by
        intro x hx
        obtain ⟨e, he, rfl⟩ := List.mem_map.1 hx
        exact (hl e (by simp [he])).1)
      obtain ⟨a1, a2, a3⟩ := ih (fun e he => hl e (by simp [he])) hW'
      obtain ⟨b1, b2, b3⟩ := covAt_covariance hp (hl e (by simp)).2
      simp only [List.map_cons, List.sum_cons]
      refine ⟨?_, ?_, ?_⟩
      · intro i hi j hj
        have := a1 i hi j hj
        beta_reduce at this ⊢
        rw [this, b1 i hi j hj]
      · intro i hi
        have := a2 i hi
        beta_reduce at this ⊢
        rw [Finset.sum_add_distrib, ← Finset.mul_sum, b2 i hi, this]
        simp
      · intro x
        have e1 : ∑ i ∈ Finset.range n, ∑ j ∈ Finset.range n,
            x i * (e.1 * covAt n p e.2 i j + (l.map fun e => e.1 * covAt n p e.2 i j).sum) * x j =
            e.1 * (∑ i ∈ Finset.range n, ∑ j ∈ Finset.range n, x i * covAt n p e.2 i j * x j) +
            ∑ i ∈ Finset.range n, ∑ j ∈ Finset.range n, x i * (l.map fun e => e.1 * covAt n p e.2 i j).sum * x j := by
          rw [Finset.mul_sum, ← Finset.sum_add_distrib]
          apply Finset.sum_congr rfl
          intro i _
          rw [Finset.mul_sum, ← Finset.sum_add_distrib]
          apply Finset.sum_congr rfl
          intro j _
          ring
        rw [e1]
        exact add_nonneg (mul_nonneg (hl e (by simp)).1 (b3 x)) (a3 x)
  obtain ⟨a1, a2, a3⟩ := key
  unfold meanCov
  refine ⟨?_, ?_, ?_⟩
  · intro i hi j hj
    have := a1 i hi j hj
    beta_reduce at this ⊢
    rw [this]
  · intro i hi
    have := a2 i hi
    beta_reduce at this ⊢
    rw [← Finset.sum_div, this, zero_div]
  · intro x
    have e1 : ∑ i ∈ Finset.range n, ∑ j ∈ Finset.range n,
        x i * ((l.map fun e => e.1 * covAt n p e.2 i j).sum / (l.map (·.1)).sum) * x j =
        (∑ i ∈ Finset.range n, ∑ j ∈ Finset.range n, x i * (l.map fun e => e.1 * covAt n p e.2 i j).sum * x j) /
          (l.map (·.1)).sum := by
      rw [Finset.sum_div]
      apply Finset.sum_congr rfl
      intro i _
      rw [Finset.sum_div]
      apply Finset.sum_congr rfl
      intro j _
      ring
    rw [e1]
    exact div_nonneg (a3 x) hW

theorem Covariance.congr {n : Nat} {A B : Mat K} (h : EqOn n A B) (hB : Covariance n B) : Covariance n A := by
  obtain ⟨b1, b2, b3⟩ := hB
  refine ⟨?_, ?_, ?_⟩
  · intro i hi j hj
    rw [h i hi j hj, h j hj i hi, b1 i hi j hj]
  · intro i hi
    rw [← b2 i hi]
    exact Finset.sum_congr rfl fun j hj => h i hi j (Finset.mem_range.1 hj)
  · intro x
    refine (b3 x).trans (le_of_eq ?_)
    apply Finset.sum_congr rfl
    intro i hi
    apply Finset.sum_congr rfl
    intro j hj
    rw [h i (Finset.mem_range.1 hi) j (Finset.mem_range.1 hj)]

/-- What is stored, minus the product of the probabilities, is the mean of the covariances. -/
theorem stored_mean {n : Nat} {p : Nat → K} (hp : ∀ i < n, 0 ≤ p i) {l : List (Mat K × K)}
    (hT : ∀ e ∈ l, ∀ i < n, ∀ j < n, 0 ≤ e.1 i j) (hw : wsum l ≠ 0) :
    EqOn n (fun i j => p i * gsum n p l i j * p j * (1 / wsum l) - p i * p j)
      (meanCov n p (l.map fun e => (e.2, e.1))) := by
  intro i hi j hj
  unfold meanCov
  rw [List.map_map, List.map_map]
  have e1 : ∀ l : List (Mat K × K), (∀ e ∈ l, ∀ i < n, ∀ j < n, 0 ≤ e.1 i j) →
      (l.map ((fun e => e.1 * covAt n p e.2 i j) ∘ fun e => (e.2, e.1))).sum =
      p i * gsum n p l i j * p j - p i * p j * wsum l := by
    intro l hT
    induction l with
    | nil => simp [gsum, wsum]
    | cons e l ih =>
      rw [List.map_cons, List.sum_cons, ih fun e he => hT e (by simp [he])]
      simp only [Function.comp]
      rw [← covAt_eq n hp (hT e (by simp)) hi]
      unfold gsum wsum
      simp only [List.map_cons, List.sum_cons]
      ring
  rw [e1 l hT]
  have e2 : (l.map ((fun x : K × Mat K => x.1) ∘ fun e => (e.2, e.1))).sum = wsum l := rfl
  rw [e2]
  field_simp

/-! ## Times -/

theorem gaps_length : ∀ l : List K, (gaps l).length = l.length - 1
  | [] => rfl
  | [_] => rfl
  | a :: b :: r => by
    unfold gaps
    rw [List.length_cons, gaps_length (b :: r)]
    simp

theorem gaps_getD : ∀ (l : List K) (k : Nat), k + 1 < l.length → (gaps l).getD k 0 = l.getD (k + 1) 0 - l.getD k 0
  | [], k, h => by simp at h
  | [_], k, h => by simp at h
  | a :: b :: r, 0, _ => rfl
  | a :: b :: r, k + 1, h => by
    unfold gaps
    rw [List.getD_cons_succ, gaps_getD (b :: r) k (by simpa using h)]
    rfl

theorem getLastD_eq {α : Type} (l : List α) (a : α) (h : l ≠ []) : l.getLastD a = l.getD (l.length - 1) a := by
  have hp := List.length_pos_iff.2 h
  rw [List.getLastD_eq_getLast?, List.getLast?_eq_getElem?, List.getD_eq_getElem?_getD]

/-- The steps along strictly monotone times. -/
theorem steps_spec {ts : List K} (h : ts.Pairwise (· < ·)) (reverse : Bool) {len : Nat} (hl : ts.length = len + 1) :
    let us := if reverse then ts.reverse else ts
    (steps us).length = len ∧ ∀ k < len, (steps us).getD k 0 =
      if reverse then ts.getD (len - k) 0 - ts.getD (len - k - 1) 0 else ts.getD (k + 1) 0 - ts.getD k 0 := by
  intro us
  have hget : ∀ a b : Nat, a < b → b < ts.length → ts.getD a 0 < ts.getD b 0 := by
    intro a b hab hb
    rw [getD_get _ _ hb, getD_get _ _ (by omega)]
    exact List.pairwise_iff_getElem.1 h a b (by omega) hb hab
  have hrev : ∀ k, k < ts.length → ts.reverse.getD k 0 = ts.getD (ts.length - 1 - k) 0 := by
    intro k hk
    rw [getD_get _ _ (by simpa using hk), getD_get _ _ (by omega), List.getElem_reverse]
  have hlen : us.length = len + 1 := by
    show (if reverse then ts.reverse else ts).length = _
    split <;> simp [hl]
  have hne : us ≠ [] := List.length_pos_iff.1 (by omega)
  obtain ⟨t0, r, hu⟩ := List.exists_cons_of_ne_nil hne
  have h0 : us.getD 0 0 = t0 := by rw [hu]; rfl
  have hlast : us.getLastD t0 = us.getD len 0 := by
    rw [getLastD_eq us t0 hne, hlen, Nat.add_sub_cancel, getD_get _ _ (by omega), getD_get _ _ (by omega)]
  have hsteps : steps us = if us.getLastD t0 < t0 then (gaps us).map (fun d => -d) else gaps us := by
    rw [hu]
    rfl
  have hgl : (gaps us).length = len := by rw [gaps_length, hlen]; rfl
  refine ⟨?_, ?_⟩
  · rw [hsteps]
    split <;> simp [hgl]
  · intro k hk
    rw [hsteps, hlast, ← h0]
    cases hr : reverse
    · have hus : us = ts := by simp only [us, hr]; rfl
      rw [hus] at hgl ⊢
      rw [if_neg, gaps_getD _ _ (by omega)]
      · simp
      · rcases Nat.eq_zero_or_pos len with h' | h'
        · omega
        · exact not_lt.2 (hget 0 len h' (by omega)).le
    · have hus : us = ts.reverse := by simp only [us, hr]; rfl
      rw [hus] at hgl ⊢
      have hlt : ts.reverse.getD len 0 < ts.reverse.getD 0 0 := by
        rw [hrev _ (by omega), hrev _ (by omega)]
        exact hget _ _ (by omega) (by omega)
      rw [if_pos hlt, getD_get _ _ (by rw [List.length_map]; omega), List.getElem_map,
        ← getD_get _ 0 (by omega), gaps_getD _ _ (by rw [List.length_reverse]; omega), hrev _ (by omega), hrev _ (by omega)]
      simp only [if_true]
      rw [show ts.length - 1 - k = len - k by omega, show ts.length - 1 - (k + 1) = len - k - 1 by omega]
      ring

/-- The lengths add up to the time that has passed. -/
theorem flowSteps_sum (n : Nat) (Ms : List (Mat K)) (ts : List K) (reverse : Bool) : ∀ m, m ≤ Ms.length →
    ((flowSteps n reverse Ms ts m).map (·.1)).sum =
      if reverse then ts.getD Ms.length 0 - ts.getD (Ms.length - m) 0 else ts.getD m 0 - ts.getD 0 0
  | 0, _ => by cases reverse <;> simp [flowSteps]
  | m + 1, h => by
    have ih := flowSteps_sum n Ms ts reverse m (by omega)
    unfold flowSteps at ih ⊢
    cases reverse
    · simp only [Bool.false_eq_true, if_false, List.map_map] at ih ⊢
      rw [List.range_succ, List.map_append, List.sum_append, ih]
      simp
    · simp only [if_true, List.map_map] at ih ⊢
      rw [List.range_succ, List.map_append, List.sum_append, ih]
      simp only [List.map_cons, List.map_nil, List.sum_cons, List.sum_nil, Function.comp]
      rw [show Ms.length - (m + 1) = Ms.length - m - 1 by omega]
      ring

/-! ## Products -/

theorem products_spec {n : Nat} (sparse : Bool) {Ms : List (Mat K)} (hne : Ms ≠ []) (h : ∀ A ∈ Ms, Stoch n A) :
    ∃ Ts, products n sparse Ms = .ok Ts ∧ Ts.length = Ms.length ∧ ∀ k (hk : k < Ts.length),
      EqOn n Ts[k] (prod n (Ms.take (k + 1))) := by
  obtain ⟨M, rest, rfl⟩ := List.exists_cons_of_ne_nil hne
  refine ⟨_, rfl, ?_⟩
  have key : ∀ (rest done acc : List (Mat K)), acc ≠ [] → acc.length = done.length →
      (∀ A ∈ done ++ rest, Stoch n A) →
      (∀ k (hk : k < acc.length), EqOn n acc[k] (prod n (done.take (k + 1)))) →
      let out := rest.foldl (fun acc T =>
        acc ++ [if sparse then rowNormalize n (mul n (acc.getLastD eye) T) else mul n (acc.getLastD eye) T]) acc
      out.length = (done ++ rest).length ∧
      ∀ k (hk : k < out.length), EqOn n out[k] (prod n ((done ++ rest).take (k + 1))) := by
    intro rest
    induction rest with
    | nil =>
      intro done acc _ hl _ hk
      simp only [List.foldl_nil, List.append_nil]
      exact ⟨hl, hk⟩
    | cons T rest ih =>
      intro done acc hane hl hst hk
      have hlast : EqOn n (acc.getLastD eye) (prod n done) := by
        have hpos := List.length_pos_iff.2 hane
        have := hk (acc.length - 1) (by omega)
        rw [List.take_of_length_le (by omega)] at this
        rw [getLastD_eq acc eye hane, getD_get _ _ (by omega)]
        exact this
      have hp : EqOn n (mul n (acc.getLastD eye) T) (prod n (done ++ [T])) :=
        (mul_congr hlast (EqOn.refl n T)).trans (prod_append n done T).symm
      have hsd : Stoch n (prod n (done ++ [T])) := stoch_prod fun A hA => hst A (by
        rw [List.append_cons]
        exact List.mem_append_left _ hA)
      have hnew : EqOn n (if sparse then rowNormalize n (mul n (acc.getLastD eye) T) else mul n (acc.getLastD eye) T)
          (prod n (done ++ [T])) := by
        split
        · exact (rowNormalize_stoch (stoch_congr hp hsd)).trans hp
        · exact hp
      have := ih (done ++ [T])
        (acc ++ [if sparse then rowNormalize n (mul n (acc.getLastD eye) T) else mul n (acc.getLastD eye) T]) (by simp)
        (by simp [hl]) (by rw [← List.append_cons]; exact hst) (by
        intro k hk'
        by_cases hka : k < acc.length
        · rw [List.getElem_append_left hka, List.take_append_of_le_length (by omega)]
          exact hk k hka
        · have : k = acc.length := by
            rw [List.length_append, List.length_singleton] at hk'
            omega
          subst this
          rw [List.getElem_append_right (le_refl _)]
          simp only [Nat.sub_self, List.getElem_cons_zero]
          rw [List.take_of_length_le (by simp; omega)]
          exact hnew)
      rw [← List.append_cons] at this
      exact this
  have := key rest [M] [M] (by simp) rfl (by simpa using h) (by
    intro k hk
    have : k = 0 := by simpa using hk
    subst this
    exact (mul_eye M).symm)
  exact this

end Verif.Flow
