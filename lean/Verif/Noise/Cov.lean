import Verif.Noise.Walks

/-! # Covariances of two transitions -/

set_option linter.dupNamespace false
set_option linter.unusedSectionVars false

namespace Verif.Noise

open Verif.TempNet Verif.Trans Verif.Flow Verif.EndToEnd Verif.Decay Verif.Autocov Verif.Average Finset MeasureTheory

variable {n : Nat} {p : Nat → ℝ}

theorem totalDist_triangle (A B C : Mat ℝ) : totalDist n A C ≤ totalDist n A B + totalDist n B C := by
  unfold totalDist rowDist
  rw [← sum_add_distrib]
  refine sum_le_sum fun i _ => ?_
  rw [← sum_add_distrib]
  exact sum_le_sum fun j _ => abs_sub_le _ _ _

theorem totalDist_comm (A B : Mat ℝ) : totalDist n A B = totalDist n B A := by
  unfold totalDist rowDist
  exact sum_congr rfl fun i _ => sum_congr rfl fun j _ => abs_sub_comm _ _

theorem totalDist_congr {A A' B B' : Mat ℝ} (h : EqOn n A A') (h' : EqOn n B B') : totalDist n A B = totalDist n A' B' :=
  sum_congr rfl fun _ hi => rowDist_congr h h' (mem_range.1 hi)

theorem totalDist_nonneg (A B : Mat ℝ) : 0 ≤ totalDist n A B := sum_nonneg fun _ _ => rowDist_nonneg _ _ _

/-- Share of the walkers at `k` that started at `j`. -/
noncomputable def origin (n : Nat) (p : Nat → ℝ) (T : Mat ℝ) (j k : Nat) : ℝ := p j * T j k / after n p T k

theorem covAt_eq (T : Mat ℝ) (i j : Nat) :
    covAt n p T i j = (∑ k ∈ range n, (p i * T i k) * origin n p T j k) - p i * p j := by
  unfold covAt
  congr 1
  refine sum_congr rfl fun k _ => ?_
  unfold origin
  split_ifs with h
  · rw [h, div_zero, mul_zero]
  · rw [mul_div_assoc]

variable (hp : ∀ i < n, 0 ≤ p i) (h1 : ∑ i ∈ range n, p i = 1)

include hp

theorem after_nonneg {T : Mat ℝ} (hT : Stoch n T) {k : Nat} (hk : k < n) : 0 ≤ after n p T k :=
  sum_nonneg fun i hi => mul_nonneg (hp i (mem_range.1 hi)) ((hT i (mem_range.1 hi)).1 k hk)

theorem origin_nonneg {T : Mat ℝ} (hT : Stoch n T) {j k : Nat} (hj : j < n) (hk : k < n) : 0 ≤ origin n p T j k :=
  div_nonneg (mul_nonneg (hp j hj) ((hT j hj).1 k hk)) (after_nonneg hp hT hk)

theorem origin_sum {T : Mat ℝ} (k : Nat) : ∑ j ∈ range n, origin n p T j k ≤ 1 := by
  unfold origin
  rw [← sum_div]
  exact div_self_le_one _

theorem origin_mul {T : Mat ℝ} (hT : Stoch n T) {j k : Nat} (hj : j < n) (hk : k < n) :
    after n p T k * origin n p T j k = p j * T j k := by
  unfold origin
  by_cases h : after n p T k = 0
  · rw [h, zero_mul]
    have := (sum_eq_zero_iff_of_nonneg (s := range n) (f := fun i => p i * T i k)
      (fun i hi => mul_nonneg (hp i (mem_range.1 hi)) ((hT i (mem_range.1 hi)).1 k hk))).1 h j (mem_range.2 hj)
    exact this.symm
  · field_simp

include h1

theorem covAt_close {T T' : Mat ℝ} (hT : Stoch n T) (hT' : Stoch n T') {δ : ℝ} (hδ : ∀ i < n, rowDist n T T' i ≤ δ) :
    totalDist n (covAt n p T) (covAt n p T') ≤ 3 * δ := by
  set d : ℕ → ℕ → ℝ := fun i k => |p i * T i k - p i * T' i k| with hd
  have hdn : ∀ i k, 0 ≤ d i k := fun _ _ => abs_nonneg _
  have hD : ∑ k ∈ range n, ∑ i ∈ range n, d i k ≤ δ := by
    rw [sum_comm]
    calc ∑ i ∈ range n, ∑ k ∈ range n, d i k = ∑ i ∈ range n, p i * rowDist n T T' i := by
          refine sum_congr rfl fun i hi => ?_
          unfold rowDist
          rw [mul_sum]
          refine sum_congr rfl fun k _ => ?_
          simp only [hd]
          rw [← mul_sub, abs_mul, abs_of_nonneg (hp i (mem_range.1 hi))]
      _ ≤ ∑ i ∈ range n, p i * δ := sum_le_sum fun i hi =>
          mul_le_mul_of_nonneg_left (hδ i (mem_range.1 hi)) (hp i (mem_range.1 hi))
      _ = δ := by rw [← sum_mul, h1, one_mul]
  have hq : ∀ k, |after n p T' k - after n p T k| ≤ ∑ i ∈ range n, d i k := by
    intro k
    unfold after
    rw [← sum_sub_distrib]
    refine (abs_sum_le_sum_abs _ _).trans (sum_le_sum fun i _ => ?_)
    simp only [hd]
    rw [abs_sub_comm]
  -- the walkers at one node
  have hk2 : ∀ k < n, ∑ j ∈ range n, after n p T' k * |origin n p T j k - origin n p T' j k| ≤ 2 * ∑ i ∈ range n, d i k := by
    intro k hk
    have hone : ∀ j ∈ range n, after n p T' k * |origin n p T j k - origin n p T' j k| ≤
        |after n p T' k - after n p T k| * origin n p T j k + d j k := by
      intro j hj
      have hj := mem_range.1 hj
      have e : after n p T' k * |origin n p T j k - origin n p T' j k| =
          |(after n p T' k - after n p T k) * origin n p T j k + (p j * T j k - p j * T' j k)| := by
        rw [← abs_of_nonneg (after_nonneg hp hT' hk), ← abs_mul, abs_of_nonneg (after_nonneg hp hT' hk)]
        congr 1
        rw [mul_sub, sub_mul, origin_mul hp hT' hj hk, origin_mul hp hT hj hk]
        ring
      rw [e]
      refine (abs_add_le _ _).trans (le_of_eq ?_)
      rw [abs_mul, abs_of_nonneg (origin_nonneg hp hT hj hk)]
    refine (sum_le_sum hone).trans ?_
    rw [sum_add_distrib, ← mul_sum]
    have := mul_le_of_le_one_right (abs_nonneg (after n p T' k - after n p T k)) (origin_sum (n := n) hp (T := T) k)
    have := hq k
    linarith
  have key : totalDist n (covAt n p T) (covAt n p T') ≤ ∑ k ∈ range n, 3 * ∑ i ∈ range n, d i k := by
    have hij : ∀ i ∈ range n, ∀ j ∈ range n, |covAt n p T i j - covAt n p T' i j| ≤
        ∑ k ∈ range n, (d i k * origin n p T j k + (p i * T' i k) * |origin n p T j k - origin n p T' j k|) := by
      intro i hi j hj
      have hi := mem_range.1 hi
      have hj := mem_range.1 hj
      rw [covAt_eq, covAt_eq, sub_sub_sub_cancel_right, ← sum_sub_distrib]
      refine (abs_sum_le_sum_abs _ _).trans (sum_le_sum fun k hk => ?_)
      have hk := mem_range.1 hk
      have e : p i * T i k * origin n p T j k - p i * T' i k * origin n p T' j k =
          (p i * T i k - p i * T' i k) * origin n p T j k + (p i * T' i k) * (origin n p T j k - origin n p T' j k) := by ring
      rw [e]
      refine (abs_add_le _ _).trans (le_of_eq ?_)
      rw [abs_mul, abs_mul, abs_of_nonneg (origin_nonneg hp hT hj hk), abs_of_nonneg (mul_nonneg (hp i hi) ((hT' i hi).1 k hk))]
    unfold totalDist rowDist
    refine (sum_le_sum fun i hi => sum_le_sum (hij i hi)).trans ?_
    have hsw : ∑ i ∈ range n, ∑ j ∈ range n, ∑ k ∈ range n,
          (d i k * origin n p T j k + (p i * T' i k) * |origin n p T j k - origin n p T' j k|) =
        ∑ k ∈ range n, ((∑ i ∈ range n, d i k) * (∑ j ∈ range n, origin n p T j k) +
          ∑ j ∈ range n, after n p T' k * |origin n p T j k - origin n p T' j k|) := by
      have e1 : ∀ i ∈ range n, ∑ j ∈ range n, ∑ k ∈ range n,
          (d i k * origin n p T j k + (p i * T' i k) * |origin n p T j k - origin n p T' j k|) =
          ∑ k ∈ range n, ∑ j ∈ range n,
          (d i k * origin n p T j k + (p i * T' i k) * |origin n p T j k - origin n p T' j k|) := fun i _ => sum_comm
      rw [sum_congr rfl e1, sum_comm]
      refine sum_congr rfl fun k _ => ?_
      rw [Finset.sum_mul_sum]
      unfold after
      simp only [sum_mul]
      rw [sum_comm (s := range n) (t := range n) (f := fun j i => p i * T' i k * |origin n p T j k - origin n p T' j k|),
        ← sum_add_distrib]
      exact sum_congr rfl fun i _ => sum_add_distrib
    rw [hsw]
    refine sum_le_sum fun k hk => ?_
    have a := hk2 k (mem_range.1 hk)
    have b := mul_le_of_le_one_right (sum_nonneg (s := range n) fun i _ => hdn i k) (origin_sum (n := n) hp (T := T) k)
    linarith
  refine key.trans ?_
  rw [← mul_sum]
  linarith

theorem covAt_small {T : Mat ℝ} (hT : Stoch n T) : totalDist n (covAt n p T) (fun _ _ => 0) ≤ 2 := by
  have hij : ∀ i ∈ range n, ∀ j ∈ range n, |covAt n p T i j - 0| ≤ ∑ k ∈ range n, (p i * T i k) * origin n p T j k + p i * p j := by
    intro i hi j hj
    have hi := mem_range.1 hi
    have hj := mem_range.1 hj
    have a : 0 ≤ ∑ k ∈ range n, (p i * T i k) * origin n p T j k := sum_nonneg fun k hk =>
      mul_nonneg (mul_nonneg (hp i hi) ((hT i hi).1 k (mem_range.1 hk))) (origin_nonneg hp hT hj (mem_range.1 hk))
    have b := mul_nonneg (hp i hi) (hp j hj)
    rw [covAt_eq, sub_zero, abs_le]
    constructor <;> linarith
  unfold totalDist rowDist
  refine (sum_le_sum fun i hi => sum_le_sum (hij i hi)).trans ?_
  have hone : ∀ i ∈ range n, ∑ j ∈ range n, (∑ k ∈ range n, (p i * T i k) * origin n p T j k + p i * p j) ≤ 2 * p i := by
    intro i hi
    have hi := mem_range.1 hi
    rw [sum_add_distrib, ← mul_sum, h1, mul_one, sum_comm]
    have : ∑ k ∈ range n, ∑ j ∈ range n, p i * T i k * origin n p T j k ≤ ∑ k ∈ range n, p i * T i k := by
      refine sum_le_sum fun k hk => ?_
      rw [← mul_sum]
      exact mul_le_of_le_one_right (mul_nonneg (hp i hi) ((hT i hi).1 k (mem_range.1 hk))) (origin_sum hp k)
    rw [← mul_sum, (hT i hi).2, mul_one] at this
    linarith
  refine (sum_le_sum hone).trans ?_
  rw [← mul_sum, h1, mul_one]

omit hp h1

/-! ## Along a walk -/

variable {L : Type} [LinearOrder L] {evs evs' : List (Event L ℝ)} {nodes : List L} {ts : List ℝ}

theorem lap_empty {G : Nat → Nat → Prop} (h : ∀ a b, ¬G a b) : EqOn n (walkLaplacian n G) fun _ _ => (0 : ℝ) := by
  intro i _ j _
  classical
  have hd : degree n G i = 0 := by
    unfold degree
    rw [Finset.card_eq_zero, Finset.filter_eq_empty_iff]
    exact fun b _ => h i b
  unfold walkLaplacian
  rw [if_pos hd, sub_self]

theorem move_small (evs : List (Event L ℝ)) (nodes : List L) {rate s u : ℝ} (hr : 0 ≤ rate) (h : s ≤ u) {i : Nat} (hi : i < nodes.length) :
    rowDist nodes.length (expm nodes.length fun a b => -((u - s) * rate) * gen evs nodes s a b) eye i ≤ 2 * rate * (u - s) := by
  have hz : EqOn nodes.length (walkLaplacian nodes.length fun _ _ => False) fun _ _ => (0 : ℝ) := lap_empty fun _ _ => id
  have ht : 0 ≤ (u - s) * rate := mul_nonneg (sub_nonneg.2 h) hr
  have := expm_close (walkLaplacian_lap nodes.length (InContact evs nodes s)) (walkLaplacian_lap nodes.length fun _ _ => False)
    ht (c := 2) (by norm_num) (fun i hi => walkLaplacian_close _ _ hi) hi
  have he : EqOn nodes.length (expm nodes.length fun a b => -((u - s) * rate) * walkLaplacian nodes.length (fun _ _ => False) a b) eye :=
    expm_zero fun i hi j hj => by
      show _ * walkLaplacian nodes.length (fun _ _ => False) i j = 0
      rw [hz i hi j hj, mul_zero]
  rw [← rowDist_congr (EqOn.refl _ _) he hi]
  refine this.trans (le_of_eq ?_)
  ring

theorem rowDist_triangle (A B C : Mat ℝ) (i : Nat) : rowDist n A C i ≤ rowDist n A B i + rowDist n B C i := by
  unfold rowDist
  rw [← sum_add_distrib]
  exact sum_le_sum fun j _ => abs_sub_le _ _ _

theorem rowDist_comm (A B : Mat ℝ) (i : Nat) : rowDist n A B i = rowDist n B A i := by
  unfold rowDist
  exact sum_congr rfl fun j _ => abs_sub_comm _ _

/-- A walk does not go far in a short time. -/
theorem walk_lipschitz (hc : Covers evs ts) {rate : ℝ} (hr : 0 ≤ rate) {reverse : Bool} {P : ℝ → Mat ℝ}
    (hP : Walk nodes.length rate (gen evs nodes) (at' ts 0) (at' ts (ts.length - 1)) reverse P)
    {s u : ℝ} (h1 : at' ts 0 ≤ s) (h2 : s ≤ u) (h3 : u ≤ at' ts (ts.length - 1)) {i : Nat} (hi : i < nodes.length) :
    rowDist nodes.length (P s) (P u) i ≤ 2 * rate * (u - s) := by
  have hG := covers_grid hc nodes
  have hlap : ∀ u, Lap nodes.length (gen evs nodes u) := fun _ => walkLaplacian_lap _ _
  refine chain (R := fun s u => at' ts 0 ≤ s → u ≤ at' ts (ts.length - 1) → rowDist nodes.length (P s) (P u) i ≤ 2 * rate * (u - s))
    ?_ ?_ hG.mono ?_ s u h1 h2 h3 h1 h3
  · intro s y u hsy hyu r1 r2 ha hb
    have r1 := r1 ha (hyu.trans hb)
    have r2 := r2 (ha.trans hsy) hb
    refine (rowDist_triangle _ (P y) _ i).trans ?_
    calc _ ≤ 2 * rate * (y - s) + 2 * rate * (u - y) := add_le_add r1 r2
      _ = _ := by ring
  · intro s _ _
    rw [rowDist_eq (EqOn.refl _ _) hi, sub_self, mul_zero]
  · intro k hk s u h1 h2 h3 ha hb
    have m := hP.moves s u ha h2 hb (hG.same hk h1 h3)
    have hst : ∀ v, at' ts 0 ≤ v → v ≤ at' ts (ts.length - 1) → Stoch nodes.length (P v) := fun v a b =>
      walk_stoch hr hlap hG hP a b
    cases reverse
    · simp only [Bool.false_eq_true, if_false] at m
      rw [rowDist_comm, rowDist_congr m (mul_eye (n := nodes.length) (P s)).symm hi]
      have := rowDist_mul (A := P s) (A' := P s) (hst s ha (h2.trans hb)) (stoch_eye nodes.length)
        (fun k' hk' => move_small evs nodes hr h2 hk') hi
      rwa [rowDist_eq (EqOn.refl _ _) hi, zero_add] at this
    · simp only [if_true] at m
      rw [rowDist_congr m (mul_eye (n := nodes.length) (P u)).symm hi]
      have := rowDist_mul (A := P u) (A' := P u) (hst u (ha.trans h2) hb) (stoch_eye nodes.length)
        (fun k' hk' => move_small evs nodes hr h2 hk') hi
      rwa [rowDist_eq (EqOn.refl _ _) hi, zero_add] at this

end Verif.Noise
