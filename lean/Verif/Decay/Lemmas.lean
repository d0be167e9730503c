import Verif.Decay.Spec
import Verif.Flow.Props
import Verif.Louvain.Lemmas
import Mathlib.Algebra.Order.BigOperators.Ring.Finset
import Mathlib.Tactic.Ring
import Mathlib.Tactic.Linarith
import Mathlib.Tactic.FieldSimp

/-! # Covariances decrease along the flow -/

set_option linter.dupNamespace false
set_option linter.unusedSectionVars false

namespace Verif.Decay

open Verif.Trans Verif.Flow Verif.Autocov Verif.Partition Verif.Louvain Finset

variable {K : Type} [Field K] [LinearOrder K] [IsStrictOrderedRing K]

theorem form_congr {n : Nat} {A B : Mat K} (h : EqOn n A B) (x : Nat → K) : form n A x = form n B x := by
  unfold form
  refine sum_congr rfl fun i hi => sum_congr rfl fun j hj => ?_
  rw [h i (mem_range.1 hi) j (mem_range.1 hj)]

/-- Weighted sum of what arrives at a node. -/
def load (n : Nat) (p x : Nat → K) (T : Mat K) (k : Nat) : K := ∑ i ∈ range n, x i * (p i * T i k)

theorem load_zero {n : Nat} {p : Nat → K} {T : Mat K} (hp : ∀ i < n, 0 ≤ p i)
    (hT : ∀ i < n, ∀ j < n, 0 ≤ T i j) (x : Nat → K) {k : Nat} (hk : k < n) (h : after n p T k = 0) :
    load n p x T k = 0 := by
  have h0 : ∀ i ∈ range n, p i * T i k = 0 :=
    (sum_eq_zero_iff_of_nonneg fun i hi => mul_nonneg (hp i (mem_range.1 hi)) (hT i (mem_range.1 hi) k hk)).1 h
  exact sum_eq_zero fun i hi => by rw [h0 i hi, mul_zero]

/-- The quadratic form of a covariance. -/
theorem form_covAt (n : Nat) (p : Nat → K) (T : Mat K) (x : Nat → K) :
    form n (covAt n p T) x =
      (∑ k ∈ range n, if after n p T k = 0 then 0 else load n p x T k ^ 2 / after n p T k) -
        (∑ i ∈ range n, x i * p i) ^ 2 := by
  have e1 : form n (covAt n p T) x = ∑ i ∈ range n, ∑ j ∈ range n, ((∑ k ∈ range n,
      if after n p T k = 0 then 0 else (x i * (p i * T i k)) * (x j * (p j * T j k)) / after n p T k) -
      (x i * p i) * (x j * p j)) := by
    unfold form covAt
    refine sum_congr rfl fun i _ => sum_congr rfl fun j _ => ?_
    rw [mul_sub, sub_mul, mul_sum, sum_mul]
    congr 1
    · refine sum_congr rfl fun k _ => ?_
      split_ifs
      · ring
      · ring
    · ring
  rw [e1]
  simp only [sum_sub_distrib]
  congr 1
  · have : ∀ i ∈ range n, ∑ j ∈ range n, ∑ k ∈ range n, (if after n p T k = 0 then 0 else
        (x i * (p i * T i k)) * (x j * (p j * T j k)) / after n p T k) =
        ∑ k ∈ range n, ∑ j ∈ range n, (if after n p T k = 0 then 0 else
        (x i * (p i * T i k)) * (x j * (p j * T j k)) / after n p T k) := fun i _ => sum_comm
    rw [sum_congr rfl this, sum_comm]
    refine sum_congr rfl fun k _ => ?_
    split_ifs with h
    · simp
    · unfold load
      rw [sq, Finset.sum_mul_sum, sum_div]
      refine sum_congr rfl fun i _ => ?_
      rw [sum_div]
  · rw [sq, Finset.sum_mul_sum]

theorem after_mul (n : Nat) (p : Nat → K) (T U : Mat K) (l : Nat) :
    after n p (mul n T U) l = ∑ k ∈ range n, after n p T k * U k l := by
  unfold after mul
  simp only [mul_sum, sum_mul]
  rw [sum_comm]
  exact sum_congr rfl fun k _ => sum_congr rfl fun i _ => by ring

theorem load_mul (n : Nat) (p x : Nat → K) (T U : Mat K) (l : Nat) :
    load n p x (mul n T U) l = ∑ k ∈ range n, load n p x T k * U k l := by
  unfold load mul
  simp only [mul_sum, sum_mul]
  rw [sum_comm]
  exact sum_congr rfl fun k _ => sum_congr rfl fun i _ => by ring

/-- A further step does not increase the covariance. -/
theorem covAt_mul {n : Nat} {p : Nat → K} (hp : ∀ i < n, 0 ≤ p i) {T U : Mat K}
    (hT : ∀ i < n, ∀ j < n, 0 ≤ T i j) (hU : Stoch n U) : Below n (covAt n p (mul n T U)) (covAt n p T) := by
  intro x
  rw [form_covAt, form_covAt]
  apply sub_le_sub_right
  have hq : ∀ k < n, 0 ≤ after n p T k := fun k hk =>
    sum_nonneg fun i hi => mul_nonneg (hp i (mem_range.1 hi)) (hT i (mem_range.1 hi) k hk)
  set r : Nat → K := fun k => if after n p T k = 0 then 0 else load n p x T k ^ 2 / after n p T k with hr
  have hr0 : ∀ k < n, 0 ≤ r k := by
    intro k hk
    simp only [hr]
    split_ifs
    · exact le_refl _
    · exact div_nonneg (sq_nonneg _) (hq k hk)
  have hprod : ∀ k < n, load n p x T k ^ 2 = r k * after n p T k := by
    intro k hk
    simp only [hr]
    split_ifs with h
    · rw [load_zero hp hT x hk h]; simp
    · rw [div_mul_cancel₀ _ h]
  have step : ∀ l ∈ range n, (if after n p (mul n T U) l = 0 then 0 else
      load n p x (mul n T U) l ^ 2 / after n p (mul n T U) l) ≤ ∑ k ∈ range n, r k * U k l := by
    intro l hl
    have hU0 : ∀ k ∈ range n, 0 ≤ U k l := fun k hk => (hU k (mem_range.1 hk)).1 l (mem_range.1 hl)
    have hs : 0 ≤ ∑ k ∈ range n, r k * U k l :=
      sum_nonneg fun k hk => mul_nonneg (hr0 k (mem_range.1 hk)) (hU0 k hk)
    split_ifs with h
    · exact hs
    · have hpos : 0 < after n p (mul n T U) l := by
        refine lt_of_le_of_ne ?_ (Ne.symm h)
        rw [after_mul]
        exact sum_nonneg fun k hk => mul_nonneg (hq k (mem_range.1 hk)) (hU0 k hk)
      rw [div_le_iff₀ hpos, load_mul, after_mul]
      apply sum_sq_le_sum_mul_sum_of_sq_le_mul
      · exact fun k hk => mul_nonneg (hr0 k (mem_range.1 hk)) (hU0 k hk)
      · exact fun k hk => mul_nonneg (hq k (mem_range.1 hk)) (hU0 k hk)
      · intro k hk
        rw [mul_pow, hprod k (mem_range.1 hk)]
        exact le_of_eq (by ring)
  refine (sum_le_sum step).trans ?_
  rw [sum_comm]
  refine le_of_eq (sum_congr rfl fun k hk => ?_)
  rw [← mul_sum, (hU k (mem_range.1 hk)).2, mul_one]

theorem after_eye {n : Nat} (p : Nat → K) {k : Nat} (hk : k < n) : after n p eye k = p k := by
  unfold after eye
  simp [hk]

/-- Before the first step the covariance is that of the starting node. -/
theorem form_eye {n : Nat} (p x : Nat → K) :
    form n (covAt n p eye) x = (∑ i ∈ range n, p i * x i ^ 2) - (∑ i ∈ range n, x i * p i) ^ 2 := by
  rw [form_covAt]
  congr 1
  refine sum_congr rfl fun k hk => ?_
  rw [after_eye p (mem_range.1 hk)]
  have hl : load n p x eye k = x k * p k := by
    unfold load eye
    simp [mem_range.1 hk]
  rw [hl]
  split_ifs with h
  · rw [h]; ring
  · field_simp

theorem covAt_eye {n : Nat} {p : Nat → K} (hp : ∀ i < n, 0 ≤ p i) {T : Mat K} (hT : Stoch n T) :
    Below n (covAt n p T) (covAt n p eye) := by
  intro x
  have h := covAt_mul hp (T := eye) (fun i _ j _ => by unfold eye; split_ifs <;> norm_num) hT x
  rwa [form_congr (covAt_congr p (eye_mul T)) x] at h

/-! ## Means -/

theorem form_meanCov (n : Nat) (p : Nat → K) (l : List (K × Mat K)) (x : Nat → K) :
    form n (meanCov n p l) x = (l.map fun e => e.1 * form n (covAt n p e.2) x).sum / (l.map (·.1)).sum := by
  have : ∀ l : List (K × Mat K), form n (fun i j => (l.map fun e => e.1 * covAt n p e.2 i j).sum) x =
      (l.map fun e => e.1 * form n (covAt n p e.2) x).sum := by
    intro l
    induction l with
    | nil => simp [form]
    | cons e l ih =>
      simp only [List.map_cons, List.sum_cons, ← ih]
      unfold form
      rw [mul_sum, ← sum_add_distrib]
      refine sum_congr rfl fun i _ => ?_
      rw [mul_sum, ← sum_add_distrib]
      exact sum_congr rfl fun j _ => by ring
  rw [← this]
  unfold form meanCov
  rw [sum_div]
  refine sum_congr rfl fun i _ => ?_
  rw [sum_div]
  exact sum_congr rfl fun j _ => by ring

/-- The running mean of values that decrease, with positive weights, decreases. -/
theorem mean_succ {w v : Nat → K} {m : Nat} (hm : 0 < m) (hw : ∀ k ≤ m, 0 < w k)
    (hv : ∀ k < m, v m ≤ v k) :
    (∑ k ∈ range (m + 1), w k * v k) / (∑ k ∈ range (m + 1), w k) ≤
      (∑ k ∈ range m, w k * v k) / (∑ k ∈ range m, w k) := by
  have hp : 0 < ∑ k ∈ range m, w k :=
    sum_pos (fun k hk => hw k (mem_range.1 hk).le) ⟨0, mem_range.2 hm⟩
  have hp' : 0 < ∑ k ∈ range (m + 1), w k :=
    sum_pos (fun k hk => hw k (by have := mem_range.1 hk; omega)) ⟨0, mem_range.2 (by omega)⟩
  have hle : v m * ∑ k ∈ range m, w k ≤ ∑ k ∈ range m, w k * v k := by
    rw [mul_sum]
    refine sum_le_sum fun k hk => ?_
    rw [mul_comm]
    exact mul_le_mul_of_nonneg_left (hv k (mem_range.1 hk)) (hw k (mem_range.1 hk).le).le
  rw [div_le_div_iff₀ hp' hp, sum_range_succ, sum_range_succ]
  have h1 := mul_le_mul_of_nonneg_left hle (hw m le_rfl).le
  nlinarith [h1]

theorem mean_antitone {w v : Nat → K} {N : Nat} (hw : ∀ k < N, 0 < w k)
    (hv : ∀ k l, k ≤ l → l < N → v l ≤ v k) {m m' : Nat} (h1 : 1 ≤ m) (h2 : m ≤ m') (h3 : m' ≤ N) :
    (∑ k ∈ range m', w k * v k) / (∑ k ∈ range m', w k) ≤
      (∑ k ∈ range m, w k * v k) / (∑ k ∈ range m, w k) := by
  induction m', h2 using Nat.le_induction with
  | base => exact le_refl _
  | succ r hr ih =>
    refine le_trans (mean_succ (by omega) (fun k hk => hw k (by omega)) fun k hk => ?_) (ih (by omega))
    exact hv k r hk.le (by omega)

theorem list_sum_range (m : Nat) (f : Nat → K) : ((List.range m).map f).sum = ∑ k ∈ range m, f k := by
  induction m with
  | zero => rfl
  | succ m ih => rw [List.range_succ, List.map_append, List.sum_append, ih, sum_range_succ]; simp

/-- Steps of a flow: lengths and transitions from the start. -/
def stepOf (n : Nat) (reverse : Bool) (Ms : List (Mat K)) (ts : List K) (k : Nat) : K × Mat K :=
  if reverse then (ts.getD (Ms.length - k) 0 - ts.getD (Ms.length - k - 1) 0, prod n (Ms.reverse.take (k + 1)))
  else (ts.getD (k + 1) 0 - ts.getD k 0, prod n (Ms.take (k + 1)))

theorem flowSteps_eq (n : Nat) (reverse : Bool) (Ms : List (Mat K)) (ts : List K) (m : Nat) :
    flowSteps n reverse Ms ts m = (List.range m).map (stepOf n reverse Ms ts) := by
  unfold flowSteps stepOf
  cases reverse <;> simp

theorem prod_take_succ (n : Nat) {Ms : List (Mat K)} {k : Nat} (hk : k < Ms.length) :
    EqOn n (prod n (Ms.take (k + 1))) (mul n (prod n (Ms.take k)) Ms[k]) := by
  rw [List.take_succ_eq_append_getElem hk]
  exact prod_append n _ _

theorem stepOf_pos {n : Nat} {reverse : Bool} {Ms : List (Mat K)} {ts : List K} (hts : ts.Pairwise (· < ·))
    (hl : ts.length = Ms.length + 1) {k : Nat} (hk : k < Ms.length) : 0 < (stepOf n reverse Ms ts k).1 := by
  unfold stepOf
  cases reverse
  · simp only [Bool.false_eq_true, if_false]
    rw [getD_get _ _ (by omega), getD_get _ _ (by omega), sub_pos]
    exact List.pairwise_iff_getElem.1 hts k (k + 1) (by omega) (by omega) (by omega)
  · simp only [if_true]
    rw [getD_get _ _ (by omega), getD_get _ _ (by omega), sub_pos]
    exact List.pairwise_iff_getElem.1 hts _ _ (by omega) (by omega) (by omega)

theorem stepOf_stoch {n : Nat} {reverse : Bool} {Ms : List (Mat K)} {ts : List K}
    (hM : ∀ A ∈ Ms, Stoch n A) (k : Nat) : Stoch n (stepOf n reverse Ms ts k).2 := by
  unfold stepOf
  cases reverse
  · exact stoch_prod fun A hA => hM A (List.mem_of_mem_take hA)
  · exact stoch_prod fun A hA => hM A (List.mem_reverse.1 (List.mem_of_mem_take hA))

theorem prod_take_below {n : Nat} {p : Nat → K} (hp : ∀ i < n, 0 ≤ p i) {Ms : List (Mat K)}
    (hM : ∀ A ∈ Ms, Stoch n A) {k l : Nat} (h : k ≤ l) (hl : l ≤ Ms.length) :
    Below n (covAt n p (prod n (Ms.take l))) (covAt n p (prod n (Ms.take k))) := by
  induction l, h using Nat.le_induction with
  | base => exact fun x => le_refl _
  | succ r hr ih =>
    intro x
    rw [form_congr (covAt_congr p (prod_take_succ n (by omega : r < Ms.length))) x]
    refine (covAt_mul hp ?_ (hM _ (List.getElem_mem _)) x).trans (ih (by omega) x)
    exact fun i hi => ((stoch_prod fun A hA => hM A (List.mem_of_mem_take hA)) i hi).1

theorem stepOf_below {n : Nat} {p : Nat → K} (hp : ∀ i < n, 0 ≤ p i) {reverse : Bool} {Ms : List (Mat K)}
    {ts : List K} (hM : ∀ A ∈ Ms, Stoch n A) {k l : Nat} (h : k ≤ l) (hl : l < Ms.length) :
    Below n (covAt n p (stepOf n reverse Ms ts l).2) (covAt n p (stepOf n reverse Ms ts k).2) := by
  unfold stepOf
  cases reverse
  · exact prod_take_below hp hM (by omega) (by omega)
  · exact prod_take_below hp (fun A hA => hM A (List.mem_reverse.1 hA)) (by omega) (by simp; omega)

theorem form_flow (n : Nat) (p : Nat → K) (reverse : Bool) (Ms : List (Mat K)) (ts : List K) (m : Nat) (x : Nat → K) :
    form n (meanCov n p (flowSteps n reverse Ms ts m)) x =
      (∑ k ∈ range m, (stepOf n reverse Ms ts k).1 * form n (covAt n p (stepOf n reverse Ms ts k).2) x) /
        ∑ k ∈ range m, (stepOf n reverse Ms ts k).1 := by
  rw [form_meanCov, flowSteps_eq, List.map_map, List.map_map, ← list_sum_range, ← list_sum_range]
  rfl

/-- The mean covariance decreases with the number of steps. -/
theorem flow_below {n : Nat} {p : Nat → K} (hp : ∀ i < n, 0 ≤ p i) {reverse : Bool} {Ms : List (Mat K)}
    {ts : List K} (hM : ∀ A ∈ Ms, Stoch n A) (hts : ts.Pairwise (· < ·)) (hl : ts.length = Ms.length + 1)
    {m m' : Nat} (h1 : 1 ≤ m) (h2 : m ≤ m') (h3 : m' ≤ Ms.length) :
    Below n (meanCov n p (flowSteps n reverse Ms ts m')) (meanCov n p (flowSteps n reverse Ms ts m)) := by
  intro x
  rw [form_flow, form_flow]
  exact mean_antitone (N := Ms.length) (fun k hk => stepOf_pos hts hl hk)
    (fun k l hkl hl => stepOf_below hp hM hkl hl x) h1 h2 h3

/-- The mean covariance is at most the covariance before the first step. -/
theorem flow_le_eye {n : Nat} {p : Nat → K} (hp : ∀ i < n, 0 ≤ p i) {reverse : Bool} {Ms : List (Mat K)}
    {ts : List K} (hM : ∀ A ∈ Ms, Stoch n A) (hts : ts.Pairwise (· < ·)) (hl : ts.length = Ms.length + 1)
    {m : Nat} (h1 : 1 ≤ m) (h3 : m ≤ Ms.length) :
    Below n (meanCov n p (flowSteps n reverse Ms ts m)) (covAt n p eye) := by
  intro x
  rw [form_flow, div_le_iff₀ (sum_pos (fun k hk => stepOf_pos hts hl (by have := mem_range.1 hk; omega))
    ⟨0, mem_range.2 (by omega)⟩), mul_sum]
  refine sum_le_sum fun k hk => ?_
  rw [mul_comm]
  exact mul_le_mul_of_nonneg_right (covAt_eye hp (stepOf_stoch hM k) x)
    (stepOf_pos hts hl (by have := mem_range.1 hk; omega)).le

/-! ## Partitions -/

/-- Weights of the members of a cluster. -/
def member (c : Finset Nat) (i : Nat) : K := if i ∈ c then 1 else 0

theorem sum_member {n : Nat} {c : Finset Nat} (hc : ∀ i ∈ c, i < n) (f : Nat → K) :
    ∑ i ∈ range n, member c i * f i = ∑ i ∈ c, f i := by
  unfold member
  simp only [ite_mul, one_mul, zero_mul]
  rw [← sum_filter]
  refine sum_congr ?_ fun _ _ => rfl
  ext i
  rw [mem_filter, mem_range]
  exact ⟨fun h => h.2, fun h => ⟨hc i h, h⟩⟩

theorem blockSum_form {n : Nat} {c : Finset Nat} (hc : ∀ i ∈ c, i < n) (S : Mat K) :
    blockSum S c c = form n S (member c) := by
  unfold form blockSum
  have : ∀ i, ∑ j ∈ range n, member c i * S i j * member c j = member c i * ∑ j ∈ c, S i j := by
    intro i
    rw [← sum_member hc, mul_sum]
    exact sum_congr rfl fun j _ => by ring
  rw [sum_congr rfl fun i _ => this i, sum_member hc]

theorem cluster_lt {n : Nat} {cl : List (Finset Nat)} (h : IsPartition n cl) {c : Finset Nat} (hc : c ∈ cl) :
    ∀ i ∈ c, i < n := by
  intro i hi
  obtain ⟨k, hk, rfl⟩ := List.getElem_of_mem hc
  exact at_lt_n h ⟨_, List.getElem?_eq_getElem hk, hi⟩

theorem stability_form {n : Nat} {p : Part} (h : IsPartition n p.clusters) (S : Mat K) :
    stability S p = (p.clusters.map fun c => form n S (member c)).sum := by
  rw [stability_eq]
  congr 1
  exact List.map_congr_left fun c hc => blockSum_form (cluster_lt h hc) S

theorem stability_below {n : Nat} {p : Part} (h : IsPartition n p.clusters) {A B : Mat K} (hAB : Below n A B) :
    stability A p ≤ stability B p := by
  rw [stability_form h, stability_form h]
  exact List.sum_le_sum fun c _ => hAB _

theorem share_sum {n : Nat} {cl : List (Finset Nat)} (h : IsPartition n cl) (p : Nat → K) :
    (cl.map (share p)).sum = ∑ i ∈ range n, p i := by
  obtain ⟨lab, hlab⟩ := exists_lab h
  rw [sum_map_getD cl _ ∅]
  exact sum_clusters h lab hlab fun _ i => p i

/-- Before the first step the stability of a partition is one minus the sum of the squared
probabilities of its clusters. -/
theorem stability_eye {n : Nat} {q : Nat → K} (hq : Distribution n q) {p : Part} (h : IsPartition n p.clusters) :
    stability (covAt n q eye) p = 1 - (p.clusters.map fun c => share q c ^ 2).sum := by
  rw [stability_form h]
  have e : ∀ c ∈ p.clusters, form n (covAt n q eye) (member c) = share q c - share q c ^ 2 := by
    intro c hc
    have hc' := cluster_lt h hc
    rw [form_eye, sum_member hc']
    congr 1
    have : ∀ i, q i * member c i ^ 2 = member c i * q i := by
      intro i; unfold member; split_ifs <;> ring
    rw [sum_congr rfl fun i _ => this i, sum_member hc']
    rfl
  rw [List.map_congr_left e]
  have : ∀ l : List (Finset Nat), (l.map fun c => share q c - share q c ^ 2).sum =
      (l.map (share q)).sum - (l.map fun c => share q c ^ 2).sum := by
    intro l
    induction l with
    | nil => simp
    | cons c l ih => simp only [List.map_cons, List.sum_cons, ih]; ring
  rw [this, share_sum h, hq.2]

/-- The squared probabilities add up to at least one over the number of clusters. -/
theorem share_sq {n : Nat} {q : Nat → K} (hq : Distribution n q) {cl : List (Finset Nat)} (h : IsPartition n cl) :
    1 / (cl.length : K) ≤ (cl.map fun c => share q c ^ 2).sum := by
  have hs := share_sum h q
  rw [hq.2, sum_map_getD cl _ ∅] at hs
  rw [sum_map_getD cl _ ∅]
  have hc := sum_sq_le_sum_mul_sum_of_sq_le_mul (range cl.length) (r := fun k => share q (cl.getD k ∅))
    (f := fun _ => (1 : K)) (g := fun k => share q (cl.getD k ∅) ^ 2) (fun _ _ => zero_le_one)
    (fun _ _ => sq_nonneg _) (fun _ _ => le_of_eq (by ring))
  rw [hs] at hc
  have hl : 0 < (cl.length : K) := by
    rcases Nat.eq_zero_or_pos cl.length with h0 | h0
    · rw [h0] at hs; simp at hs
    · exact_mod_cast h0
  rw [div_le_iff₀ hl]
  simp only [sum_const, card_range, nsmul_eq_mul, mul_one, one_pow] at hc
  linarith

end Verif.Decay
