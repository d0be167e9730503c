import Verif.Average.Spec
import Verif.Decay.Lemmas
import Verif.Trans.Evolution
import Verif.EndToEnd.Found
import Mathlib.MeasureTheory.Integral.IntervalIntegral.Basic
import Mathlib.MeasureTheory.Function.LocallyIntegrable
import Mathlib.Order.Interval.Set.Monotone

/-! # Sums at event times and integrals over time -/

set_option linter.dupNamespace false
set_option linter.unusedSectionVars false

namespace Verif.Average

open Verif.TempNet Verif.Trans Verif.Flow Verif.EndToEnd Verif.Decay Verif.Autocov Finset MeasureTheory

/-! ## Monotone functions on a grid -/

theorem grid_mono {τ : ℕ → ℝ} {N : ℕ} (h : ∀ k < N, τ k ≤ τ (k + 1)) {i j : ℕ} (hij : i ≤ j) (hj : j ≤ N) : τ i ≤ τ j := by
  induction j, hij using Nat.le_induction with
  | base => exact le_rfl
  | succ r hr ih => exact (ih (by omega)).trans (h r (by omega))

theorem integral_bounds {τ : ℕ → ℝ} {N : ℕ} (h : ∀ k < N, τ k ≤ τ (k + 1)) {f : ℝ → ℝ}
    (hf : AntitoneOn f (Set.Icc (τ 0) (τ N))) :
    ∑ k ∈ range N, (τ (k + 1) - τ k) * f (τ (k + 1)) ≤ ∫ u in (τ 0)..(τ N), f u ∧
      ∫ u in (τ 0)..(τ N), f u ≤ ∑ k ∈ range N, (τ (k + 1) - τ k) * f (τ k) := by
  have hsub : ∀ k < N, Set.Icc (τ k) (τ (k + 1)) ⊆ Set.Icc (τ 0) (τ N) := fun k hk =>
    Set.Icc_subset_Icc (grid_mono h (by omega) (by omega)) (grid_mono h (by omega) (by omega))
  have hint : ∀ k < N, IntervalIntegrable f volume (τ k) (τ (k + 1)) := by
    intro k hk
    apply AntitoneOn.intervalIntegrable
    rw [Set.uIcc_of_le (h k hk)]
    exact hf.mono (hsub k hk)
  rw [← intervalIntegral.sum_integral_adjacent_intervals hint]
  constructor
  · refine sum_le_sum fun k hk => ?_
    have hk := mem_range.1 hk
    have := intervalIntegral.integral_mono_on (μ := volume) (h k hk) (intervalIntegrable_const (c := f (τ (k + 1)))) (hint k hk)
      fun u hu => hf (hsub k hk hu) (hsub k hk ⟨h k hk, le_rfl⟩) hu.2
    rwa [intervalIntegral.integral_const, smul_eq_mul] at this
  · refine sum_le_sum fun k hk => ?_
    have hk := mem_range.1 hk
    have := intervalIntegral.integral_mono_on (μ := volume) (h k hk) (hint k hk) (intervalIntegrable_const (c := f (τ k)))
      fun u hu => hf (hsub k hk ⟨le_rfl, h k hk⟩) (hsub k hk hu) hu.1
    rwa [intervalIntegral.integral_const, smul_eq_mul] at this

theorem gap_bound {τ : ℕ → ℝ} {N : ℕ} (h : ∀ k < N, τ k ≤ τ (k + 1)) {f : ℝ → ℝ}
    (hf : AntitoneOn f (Set.Icc (τ 0) (τ N))) {gap : ℝ} (hg : ∀ k < N, τ (k + 1) - τ k ≤ gap) :
    ∑ k ∈ range N, (τ (k + 1) - τ k) * f (τ k) ≤
      ∑ k ∈ range N, (τ (k + 1) - τ k) * f (τ (k + 1)) + gap * (f (τ 0) - f (τ N)) := by
  have key : ∀ m ≤ N, ∑ k ∈ range m, (τ (k + 1) - τ k) * f (τ k) ≤
      ∑ k ∈ range m, (τ (k + 1) - τ k) * f (τ (k + 1)) + gap * (f (τ 0) - f (τ m)) := by
    intro m hm
    induction m with
    | zero => simp
    | succ m ih =>
      rw [sum_range_succ, sum_range_succ]
      have hd : 0 ≤ f (τ m) - f (τ (m + 1)) := sub_nonneg.2
        (hf ⟨grid_mono h (by omega) (by omega), grid_mono h (by omega) (by omega)⟩
          ⟨grid_mono h (by omega) (by omega), grid_mono h (by omega) (by omega)⟩ (h m (by omega)))
      have := mul_le_mul_of_nonneg_right (hg m (by omega)) hd
      linarith [ih (by omega)]
  exact key N le_rfl

theorem sum_gaps (τ : ℕ → ℝ) (N : ℕ) : ∑ k ∈ range N, (τ (k + 1) - τ k) = τ N - τ 0 := Finset.sum_range_sub τ N

/-- From steps within the intervals of a grid to all times. -/
theorem chain {τ : ℕ → ℝ} {R : ℝ → ℝ → Prop} (trans : ∀ s y u, s ≤ y → y ≤ u → R s y → R y u → R s u)
    (refl : ∀ s, R s s) : ∀ {N : ℕ}, (∀ k < N, τ k ≤ τ (k + 1)) →
    (∀ k < N, ∀ s u, τ k ≤ s → s ≤ u → u ≤ τ (k + 1) → R s u) → ∀ s u, τ 0 ≤ s → s ≤ u → u ≤ τ N → R s u := by
  intro N
  induction N with
  | zero =>
    intro _ _ s u h1 h2 h3
    have : s = u := le_antisymm h2 (h3.trans h1)
    rw [this]
    exact refl u
  | succ N ih =>
    intro h hl s u h1 h2 h3
    have ih := ih (fun k hk => h k (by omega)) fun k hk => hl k (by omega)
    rcases le_total u (τ N) with hu | hu
    · exact ih s u h1 h2 hu
    · rcases le_total s (τ N) with hs | hs
      · exact trans s _ u hs hu (ih s _ h1 hs le_rfl) (hl N (by omega) _ u le_rfl hu h3)
      · exact hl N (by omega) s u hs h2 h3

/-! ## Walks -/

/-- A generator: rows add up to zero, no positive entries off the diagonal. -/
def Lap (n : Nat) (A : Mat ℝ) : Prop :=
  (∀ i < n, ∑ j ∈ range n, A i j = 0) ∧ ∀ i < n, ∀ j < n, i ≠ j → A i j ≤ 0

/-- Step of the walk while the generator is constant. -/
noncomputable def move (n : Nat) (rate : ℝ) (g : ℝ → Mat ℝ) (s u : ℝ) : Mat ℝ :=
  expm n fun i j => -((u - s) * rate) * g s i j

theorem move_stoch {n : Nat} {rate : ℝ} (hr : 0 ≤ rate) {g : ℝ → Mat ℝ} (hg : ∀ u, Lap n (g u)) {s u : ℝ} (h : s ≤ u) :
    Stoch n (move n rate g s u) :=
  expm_stoch (hg s).1 (hg s).2 (mul_nonneg (sub_nonneg.2 h) hr)

theorem move_self (n : Nat) (rate : ℝ) (g : ℝ → Mat ℝ) (s : ℝ) : EqOn n (move n rate g s s) eye :=
  expm_zero fun i _ j _ => by simp

theorem move_congr {n : Nat} {rate : ℝ} {g : ℝ → Mat ℝ} {s u : ℝ} {A : Mat ℝ} (h : EqOn n (g s) A) :
    move n rate g s u = expm n fun i j => -((u - s) * rate) * A i j := by
  unfold move
  apply expm_congr
  intro i hi j hj
  show _ * g s i j = _
  rw [h i hi j hj]

theorem move_split {n : Nat} {rate : ℝ} {g : ℝ → Mat ℝ} {s y u : ℝ} (h : EqOn n (g y) (g s)) :
    EqOn n (mul n (move n rate g s y) (move n rate g y u)) (move n rate g s u) ∧
    EqOn n (mul n (move n rate g y u) (move n rate g s y)) (move n rate g s u) :=
  segment_split h

/-- A grid between whose times the generator is constant. -/
structure Grid (n : Nat) (g : ℝ → Mat ℝ) (τ : ℕ → ℝ) (N : ℕ) : Prop where
  mono : ∀ k < N, τ k ≤ τ (k + 1)
  const : ∀ k < N, ∀ u, τ k ≤ u → u < τ (k + 1) → EqOn n (g u) (g (τ k))

theorem Grid.same {n : Nat} {g : ℝ → Mat ℝ} {τ : ℕ → ℝ} {N : ℕ} (h : Grid n g τ N) {k : ℕ} (hk : k < N) {s u : ℝ}
    (h1 : τ k ≤ s) (h3 : u ≤ τ (k + 1)) : ∀ v, s ≤ v → v < u → EqOn n (g v) (g s) := fun v hv hu =>
  (h.const k hk v (h1.trans hv) (hu.trans_le h3)).trans (h.const k hk s h1 ((hv.trans_lt hu).trans_le h3)).symm

variable {n : Nat} {rate : ℝ} {g : ℝ → Mat ℝ} {τ : ℕ → ℝ} {N : ℕ} {P : ℝ → Mat ℝ}

theorem walk_fwd (hr : 0 ≤ rate) (hg : ∀ u, Lap n (g u)) (hG : Grid n g τ N)
    (h : Walk n rate g (τ 0) (τ N) false P) {s u : ℝ} (h1 : τ 0 ≤ s) (h2 : s ≤ u) (h3 : u ≤ τ N) :
    ∃ U, Stoch n U ∧ EqOn n (P u) (mul n (P s) U) := by
  refine chain (R := fun s u => ∃ U, Stoch n U ∧ EqOn n (P u) (mul n (P s) U)) ?_ ?_ hG.mono ?_ s u h1 h2 h3
  · rintro s y u - - ⟨U, hU, e1⟩ ⟨V, hV, e2⟩
    refine ⟨mul n U V, stoch_mul hU hV, e2.trans ?_⟩
    rw [← mul_assoc']
    exact mul_congr e1 (EqOn.refl _ _)
  · exact fun s => ⟨eye, stoch_eye _, (mul_eye _).symm⟩
  · intro k hk s u h1 h2 h3
    have := h.moves s u ((grid_mono hG.mono (by omega) (by omega)).trans h1) h2
      (h3.trans (grid_mono hG.mono (by omega) (by omega))) (hG.same hk h1 h3)
    exact ⟨_, move_stoch hr hg h2, this⟩

theorem walk_bwd (hr : 0 ≤ rate) (hg : ∀ u, Lap n (g u)) (hG : Grid n g τ N)
    (h : Walk n rate g (τ 0) (τ N) true P) {s u : ℝ} (h1 : τ 0 ≤ s) (h2 : s ≤ u) (h3 : u ≤ τ N) :
    ∃ U, Stoch n U ∧ EqOn n (P s) (mul n (P u) U) := by
  refine chain (R := fun s u => ∃ U, Stoch n U ∧ EqOn n (P s) (mul n (P u) U)) ?_ ?_ hG.mono ?_ s u h1 h2 h3
  · rintro s y u - - ⟨U, hU, e1⟩ ⟨V, hV, e2⟩
    refine ⟨mul n V U, stoch_mul hV hU, e1.trans ?_⟩
    rw [← mul_assoc']
    exact mul_congr e2 (EqOn.refl _ _)
  · exact fun s => ⟨eye, stoch_eye _, (mul_eye _).symm⟩
  · intro k hk s u h1 h2 h3
    have := h.moves s u ((grid_mono hG.mono (by omega) (by omega)).trans h1) h2
      (h3.trans (grid_mono hG.mono (by omega) (by omega))) (hG.same hk h1 h3)
    exact ⟨_, move_stoch hr hg h2, this⟩

theorem walk_stoch (hr : 0 ≤ rate) (hg : ∀ u, Lap n (g u)) (hG : Grid n g τ N) {reverse : Bool}
    (h : Walk n rate g (τ 0) (τ N) reverse P) {u : ℝ} (h1 : τ 0 ≤ u) (h3 : u ≤ τ N) : Stoch n (P u) := by
  cases reverse
  · obtain ⟨U, hU, e⟩ := walk_fwd hr hg hG h le_rfl h1 h3
    exact stoch_congr (e.trans ((mul_congr h.start (EqOn.refl _ _)).trans (eye_mul _))) hU
  · obtain ⟨U, hU, e⟩ := walk_bwd hr hg hG h h1 h3 le_rfl
    exact stoch_congr (e.trans ((mul_congr h.start (EqOn.refl _ _)).trans (eye_mul _))) hU

/-- Covariance of weights along the walk. -/
noncomputable def along (n : Nat) (p x : Nat → ℝ) (P : ℝ → Mat ℝ) (u : ℝ) : ℝ := form n (covAt n p (P u)) x

theorem along_fwd (hr : 0 ≤ rate) (hg : ∀ u, Lap n (g u)) (hG : Grid n g τ N) {p : Nat → ℝ} (hp : ∀ i < n, 0 ≤ p i)
    (h : Walk n rate g (τ 0) (τ N) false P) (x : Nat → ℝ) : AntitoneOn (along n p x P) (Set.Icc (τ 0) (τ N)) := by
  intro s hs u hu hsu
  obtain ⟨U, hU, e⟩ := walk_fwd hr hg hG h hs.1 hsu hu.2
  unfold along
  rw [form_congr (covAt_congr p e) x]
  exact covAt_mul hp (fun i hi => (walk_stoch hr hg hG h hs.1 hs.2 i hi).1) hU x

theorem along_bwd (hr : 0 ≤ rate) (hg : ∀ u, Lap n (g u)) (hG : Grid n g τ N) {p : Nat → ℝ} (hp : ∀ i < n, 0 ≤ p i)
    (h : Walk n rate g (τ 0) (τ N) true P) (x : Nat → ℝ) : MonotoneOn (along n p x P) (Set.Icc (τ 0) (τ N)) := by
  intro s hs u hu hsu
  obtain ⟨U, hU, e⟩ := walk_bwd hr hg hG h hs.1 hsu hu.2
  unfold along
  rw [form_congr (covAt_congr p e) x]
  exact covAt_mul hp (fun i hi => (walk_stoch hr hg hG h hu.1 hu.2 i hi).1) hU x

/-- The walk at the times of the grid. -/
theorem grid_fwd (hG : Grid n g τ N) (h : Walk n rate g (τ 0) (τ N) false P) {Ms : List (Mat ℝ)}
    (hl : Ms.length = N) (hM : ∀ k (hk : k < Ms.length), EqOn n Ms[k] (move n rate g (τ k) (τ (k + 1)))) :
    ∀ k ≤ N, EqOn n (prod n (Ms.take k)) (P (τ k)) := by
  intro k
  induction k with
  | zero => exact fun _ => h.start.symm
  | succ k ih =>
    intro hk
    refine (prod_take_succ n (by omega)).trans ((mul_congr (ih (by omega)) (hM k (by omega))).trans (EqOn.symm ?_))
    exact h.moves _ _ (grid_mono hG.mono (by omega) (by omega)) (hG.mono k (by omega))
      (grid_mono hG.mono (by omega) (by omega)) (hG.same (by omega) le_rfl le_rfl)

theorem grid_bwd (hG : Grid n g τ N) (h : Walk n rate g (τ 0) (τ N) true P) {Ms : List (Mat ℝ)}
    (hl : Ms.length = N) (hM : ∀ k (hk : k < Ms.length), EqOn n Ms[k] (move n rate g (τ k) (τ (k + 1)))) :
    ∀ k ≤ N, EqOn n (prod n (Ms.reverse.take k)) (P (τ (N - k))) := by
  intro k
  induction k with
  | zero => exact fun _ => h.start.symm
  | succ k ih =>
    intro hk
    refine (prod_take_succ n (by simp; omega)).trans (EqOn.trans (mul_congr
      (B' := move n rate g (τ (N - (k + 1))) (τ (N - k))) (ih (by omega)) ?_) (EqOn.symm ?_))
    · rw [List.getElem_reverse]
      have := hM (Ms.length - 1 - k) (by omega)
      rw [show Ms.length - 1 - k + 1 = N - k from by omega] at this
      rw [show N - (k + 1) = Ms.length - 1 - k from by omega]
      exact this
    · have e : N - k = N - (k + 1) + 1 := by omega
      rw [e]
      exact h.moves _ _ (grid_mono hG.mono (by omega) (by omega)) (hG.mono _ (by omega))
        (grid_mono hG.mono (by omega) (by omega)) (hG.same (by omega) le_rfl le_rfl)

/-! ## Existence -/

/-- Time of the walk in the `k`-th interval. -/
noncomputable def spent (τ : ℕ → ℝ) (reverse : Bool) (u : ℝ) (k : ℕ) : ℝ :=
  if reverse then max 0 (τ (k + 1) - max u (τ k)) else max 0 (min u (τ (k + 1)) - τ k)

/-- Step of the walk in the `k`-th interval. -/
noncomputable def piece (n : Nat) (rate : ℝ) (g : ℝ → Mat ℝ) (τ : ℕ → ℝ) (reverse : Bool) (u : ℝ) (k : ℕ) : Mat ℝ :=
  expm n fun i j => -(spent τ reverse u k * rate) * g (τ k) i j

/-- The walk, interval by interval. -/
noncomputable def walked (n : Nat) (rate : ℝ) (g : ℝ → Mat ℝ) (τ : ℕ → ℝ) (N : ℕ) (reverse : Bool) (u : ℝ) : Mat ℝ :=
  prod n ((if reverse then (List.range N).reverse else List.range N).map (piece n rate g τ reverse u))

theorem piece_zero {reverse : Bool} {u : ℝ} {k : ℕ} (h : spent τ reverse u k = 0) : EqOn n (piece n rate g τ reverse u k) eye :=
  expm_zero fun i _ j _ => by rw [h]; simp

theorem prod_eye {l : List (Mat ℝ)} (h : ∀ A ∈ l, EqOn n A eye) : EqOn n (prod n l) eye := by
  induction l with
  | nil => exact EqOn.refl _ _
  | cons A l ih => exact (mul_congr (h A (by simp)) (ih fun B hB => h B (by simp [hB]))).trans (eye_mul _)

theorem prod_last {A E : List (Mat ℝ)} {X : Mat ℝ} (h : ∀ B ∈ E, EqOn n B eye) :
    EqOn n (prod n (A ++ X :: E)) (mul n (prod n A) X) :=
  (prod_append_list n A (X :: E)).trans (mul_congr (EqOn.refl _ _)
    ((mul_congr (EqOn.refl _ _) (prod_eye h)).trans (mul_eye _)))

theorem range_split {N k : ℕ} (hk : k < N) : List.range N = List.range k ++ k :: List.range' (k + 1) (N - (k + 1)) := by
  rw [List.range_eq_range', List.range_eq_range', ← List.range'_succ]
  rw [show N - (k + 1) + 1 = N - k from by omega]
  have := List.range'_append_1 (s := 0) (m := k) (n := N - k)
  rw [show k + (N - k) = N from by omega, Nat.zero_add] at this
  exact this.symm

theorem spent_fwd_full {u : ℝ} {k : ℕ} (h : τ k ≤ τ (k + 1)) (hu : τ (k + 1) ≤ u) : spent τ false u k = τ (k + 1) - τ k := by
  simp only [spent, Bool.false_eq_true, if_false, min_eq_right hu, max_eq_right (sub_nonneg.2 h)]

theorem spent_fwd_none {u : ℝ} {k : ℕ} (hu : u ≤ τ k) : spent τ false u k = 0 := by
  simp only [spent, Bool.false_eq_true, if_false]
  exact max_eq_left (sub_nonpos.2 ((min_le_left _ _).trans hu))

theorem spent_fwd_in {u : ℝ} {k : ℕ} (h1 : τ k ≤ u) (h2 : u ≤ τ (k + 1)) : spent τ false u k = u - τ k := by
  simp only [spent, Bool.false_eq_true, if_false, min_eq_left h2, max_eq_right (sub_nonneg.2 h1)]

theorem spent_bwd_full {u : ℝ} {k : ℕ} (h : τ k ≤ τ (k + 1)) (hu : u ≤ τ k) : spent τ true u k = τ (k + 1) - τ k := by
  simp only [spent, if_true, max_eq_right hu, max_eq_right (sub_nonneg.2 h)]

theorem spent_bwd_none {u : ℝ} {k : ℕ} (hu : τ (k + 1) ≤ u) : spent τ true u k = 0 := by
  simp only [spent, if_true]
  exact max_eq_left (sub_nonpos.2 (hu.trans (le_max_left _ _)))

theorem spent_bwd_in {u : ℝ} {k : ℕ} (h1 : τ k ≤ u) (h2 : u ≤ τ (k + 1)) : spent τ true u k = τ (k + 1) - u := by
  simp only [spent, if_true, max_eq_left h1, max_eq_right (sub_nonneg.2 h2)]

/-- The walk at a time in the `k`-th interval. -/
theorem walked_fwd (hG : Grid n g τ N) {k : ℕ} (hk : k < N) {u : ℝ} (h1 : τ k ≤ u) :
    EqOn n (walked n rate g τ (k + 1) false u)
      (mul n (prod n ((List.range k).map fun j => expm n fun a b => -((τ (j + 1) - τ j) * rate) * g (τ j) a b))
        (piece n rate g τ false u k)) := by
  unfold walked
  simp only [Bool.false_eq_true, if_false]
  rw [List.range_succ, List.map_append]
  have e : (List.range k).map (piece n rate g τ false u) =
      (List.range k).map fun j => expm n fun a b => -((τ (j + 1) - τ j) * rate) * g (τ j) a b := by
    apply List.map_congr_left
    intro j hj
    have hj := List.mem_range.1 hj
    unfold piece
    rw [spent_fwd_full (hG.mono j (by omega)) ((grid_mono hG.mono (by omega) (by omega)).trans h1)]
  rw [e]
  exact prod_last (E := []) (by simp)

theorem walked_all (hG : Grid n g τ N) {k : ℕ} (hk : k < N) {u : ℝ} (h2 : u ≤ τ (k + 1)) :
    EqOn n (walked n rate g τ N false u) (walked n rate g τ (k + 1) false u) := by
  unfold walked
  simp only [Bool.false_eq_true, if_false]
  have e : List.range N = List.range (k + 1) ++ List.range' (k + 1) (N - (k + 1)) := by
    rw [range_split hk, List.range_succ, List.append_assoc]
    rfl
  rw [e, List.map_append]
  refine (prod_append_list n _ _).trans ((mul_congr (EqOn.refl _ _) (prod_eye ?_)).trans (mul_eye _))
  intro A hA
  obtain ⟨j, hj, rfl⟩ := List.mem_map.1 hA
  have hj := List.mem_range'_1.1 hj
  exact piece_zero (spent_fwd_none (h2.trans (grid_mono hG.mono (by omega) (by omega))))

theorem walked_bwd (hG : Grid n g τ N) {k : ℕ} (hk : k < N) {u : ℝ} (h1 : τ k ≤ u) (h2 : u ≤ τ (k + 1)) :
    EqOn n (walked n rate g τ N true u)
      (mul n (prod n ((List.range' (k + 1) (N - (k + 1))).reverse.map fun j =>
        expm n fun a b => -((τ (j + 1) - τ j) * rate) * g (τ j) a b)) (piece n rate g τ true u k)) := by
  unfold walked
  simp only [if_true]
  rw [range_split hk, List.reverse_append, List.reverse_cons, List.append_assoc, List.map_append]
  have e : (List.range' (k + 1) (N - (k + 1))).reverse.map (piece n rate g τ true u) =
      (List.range' (k + 1) (N - (k + 1))).reverse.map fun j => expm n fun a b => -((τ (j + 1) - τ j) * rate) * g (τ j) a b := by
    apply List.map_congr_left
    intro j hj
    have hj := List.mem_range'_1.1 (List.mem_reverse.1 hj)
    unfold piece
    rw [spent_bwd_full (hG.mono j (by omega)) (h2.trans (grid_mono hG.mono (by omega) (by omega)))]
  rw [e]
  refine prod_last ?_
  intro B hB
  have hB : B ∈ (List.range k).reverse.map (piece n rate g τ true u) := hB
  simp only [List.mem_map, List.mem_reverse, List.mem_range] at hB
  obtain ⟨j, hj, rfl⟩ := hB
  exact piece_zero (spent_bwd_none ((grid_mono hG.mono (by omega) (by omega)).trans h1))

theorem piece_fwd (hG : Grid n g τ N) {k : ℕ} (hk : k < N) {s u : ℝ} (h1 : τ k ≤ s) (h2 : s ≤ u) (h3 : u ≤ τ (k + 1)) :
    EqOn n (piece n rate g τ false u k) (mul n (piece n rate g τ false s k) (move n rate g s u)) := by
  rcases h2.eq_or_lt with rfl | h
  · exact ((mul_congr (EqOn.refl _ _) (move_self n rate g s)).trans (mul_eye _)).symm
  · rw [move_congr (hG.const k hk s h1 (h.trans_le h3))]
    unfold piece
    rw [spent_fwd_in h1 (h2.trans h3), spent_fwd_in (h1.trans h2) h3]
    have := expm_mul n (g (τ k)) (-((s - τ k) * rate)) (-((u - s) * rate))
    rw [show -((s - τ k) * rate) + -((u - s) * rate) = -((u - τ k) * rate) from by ring] at this
    exact this.symm

theorem piece_bwd (hG : Grid n g τ N) {k : ℕ} (hk : k < N) {s u : ℝ} (h1 : τ k ≤ s) (h2 : s ≤ u) (h3 : u ≤ τ (k + 1)) :
    EqOn n (piece n rate g τ true s k) (mul n (piece n rate g τ true u k) (move n rate g s u)) := by
  rcases h2.eq_or_lt with rfl | h
  · exact ((mul_congr (EqOn.refl _ _) (move_self n rate g s)).trans (mul_eye _)).symm
  · rw [move_congr (hG.const k hk s h1 (h.trans_le h3))]
    unfold piece
    rw [spent_bwd_in h1 (h2.trans h3), spent_bwd_in (h1.trans h2) h3]
    have := expm_mul n (g (τ k)) (-((τ (k + 1) - u) * rate)) (-((u - s) * rate))
    rw [show -((τ (k + 1) - u) * rate) + -((u - s) * rate) = -((τ (k + 1) - s) * rate) from by ring] at this
    exact this.symm

theorem walk_exists (hG : Grid n g τ N) (reverse : Bool) :
    Walk n rate g (τ 0) (τ N) reverse (walked n rate g τ N reverse) := by
  cases reverse
  · refine ⟨?_, ?_⟩
    · simp only [Bool.false_eq_true, if_false]
      apply prod_eye
      intro A hA
      simp only [Bool.false_eq_true, if_false, List.mem_map, List.mem_range] at hA
      obtain ⟨k, hk, rfl⟩ := hA
      exact piece_zero (spent_fwd_none (grid_mono hG.mono (by omega) (by omega)))
    · intro s u h1 h2 h3 hc
      simp only [Bool.false_eq_true, if_false]
      refine chain (R := fun s u => (∀ v, s ≤ v → v < u → EqOn n (g v) (g s)) →
        EqOn n (walked n rate g τ N false u) (mul n (walked n rate g τ N false s) (move n rate g s u))) ?_ ?_ hG.mono ?_
        s u h1 h2 h3 hc
      · intro s y u hsy hyu r1 r2 hc
        rcases hyu.eq_or_lt with rfl | hlt
        · exact r1 hc
        have e1 := r1 fun v hv hvy => hc v hv (hvy.trans_le hyu)
        have e2 := r2 fun v hv hvu => (hc v (hsy.trans hv) hvu).trans (hc y hsy hlt).symm
        refine e2.trans ((mul_congr e1 (EqOn.refl _ _)).trans ?_)
        rw [mul_assoc']
        exact mul_congr (EqOn.refl _ _) (move_split (hc y hsy hlt)).1
      · intro s _
        exact ((mul_congr (EqOn.refl _ _) (move_self n rate g s)).trans (mul_eye _)).symm
      · intro k hk s u h1 h2 h3 _
        refine (walked_all hG hk h3).trans ((walked_fwd hG hk (h1.trans h2)).trans
          ((mul_congr (EqOn.refl _ _) (piece_fwd hG hk h1 h2 h3)).trans ?_))
        rw [← mul_assoc']
        exact mul_congr ((walked_fwd hG hk h1).symm.trans (walked_all hG hk (h2.trans h3)).symm) (EqOn.refl _ _)
  · refine ⟨?_, ?_⟩
    · simp only [if_true]
      apply prod_eye
      intro A hA
      simp only [if_true, List.mem_map, List.mem_reverse, List.mem_range] at hA
      obtain ⟨k, hk, rfl⟩ := hA
      exact piece_zero (spent_bwd_none (grid_mono hG.mono (by omega) (by omega)))
    · intro s u h1 h2 h3 hc
      simp only [if_true]
      refine chain (R := fun s u => (∀ v, s ≤ v → v < u → EqOn n (g v) (g s)) →
        EqOn n (walked n rate g τ N true s) (mul n (walked n rate g τ N true u) (move n rate g s u))) ?_ ?_ hG.mono ?_
        s u h1 h2 h3 hc
      · intro s y u hsy hyu r1 r2 hc
        rcases hyu.eq_or_lt with rfl | hlt
        · exact r1 hc
        have e1 := r1 fun v hv hvy => hc v hv (hvy.trans_le hyu)
        have e2 := r2 fun v hv hvu => (hc v (hsy.trans hv) hvu).trans (hc y hsy hlt).symm
        refine e1.trans ((mul_congr e2 (EqOn.refl _ _)).trans ?_)
        rw [mul_assoc']
        exact mul_congr (EqOn.refl _ _) (move_split (hc y hsy hlt)).2
      · intro s _
        exact ((mul_congr (EqOn.refl _ _) (move_self n rate g s)).trans (mul_eye _)).symm
      · intro k hk s u h1 h2 h3 _
        refine (walked_bwd hG hk h1 (h2.trans h3)).trans
          ((mul_congr (EqOn.refl _ _) (piece_bwd hG hk h1 h2 h3)).trans ?_)
        rw [← mul_assoc']
        exact mul_congr (walked_bwd hG hk (h1.trans h2) h3).symm (EqOn.refl _ _)

theorem walk_unique (hG : Grid n g τ N) {reverse : Bool} {Q : ℝ → Mat ℝ} (h : Walk n rate g (τ 0) (τ N) reverse P)
    (h' : Walk n rate g (τ 0) (τ N) reverse Q) {u : ℝ} (h1 : τ 0 ≤ u) (h2 : u ≤ τ N) : EqOn n (P u) (Q u) := by
  cases reverse
  · refine chain (R := fun s u => EqOn n (P s) (Q s) → EqOn n (P u) (Q u)) (fun _ _ _ _ _ a b h => b (a h))
      (fun _ h => h) hG.mono ?_ (τ 0) u le_rfl h1 h2 (h.start.trans h'.start.symm)
    intro k hk s u h1 h2 h3 e
    have a1 := (grid_mono hG.mono (Nat.zero_le k) (by omega)).trans h1
    have a2 := h3.trans (grid_mono hG.mono (by omega : k + 1 ≤ N) le_rfl)
    exact (h.moves s u a1 h2 a2 (hG.same hk h1 h3)).trans
      ((mul_congr e (EqOn.refl _ _)).trans (h'.moves s u a1 h2 a2 (hG.same hk h1 h3)).symm)
  · refine chain (R := fun s u => EqOn n (P u) (Q u) → EqOn n (P s) (Q s)) (fun _ _ _ _ _ a b h => a (b h))
      (fun _ h => h) hG.mono ?_ u (τ N) h1 h2 le_rfl (h.start.trans h'.start.symm)
    intro k hk s u h1 h2 h3 e
    have a1 := (grid_mono hG.mono (Nat.zero_le k) (by omega)).trans h1
    have a2 := h3.trans (grid_mono hG.mono (by omega : k + 1 ≤ N) le_rfl)
    exact (h.moves s u a1 h2 a2 (hG.same hk h1 h3)).trans
      ((mul_congr e (EqOn.refl _ _)).trans (h'.moves s u a1 h2 a2 (hG.same hk h1 h3)).symm)

end Verif.Average
