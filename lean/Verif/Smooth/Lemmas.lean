import Verif.Noise.Props

/-! # Walks at two rates -/

set_option linter.dupNamespace false
set_option linter.unusedSectionVars false

namespace Verif.Smooth

open Verif.TempNet Verif.Trans Verif.Flow Verif.EndToEnd Verif.Decay Verif.Autocov Verif.Average Verif.Noise Finset

variable {L : Type} [LinearOrder L] {evs : List (Event L ℝ)} {nodes : List L} {ts : List ℝ}

theorem lap_smul {n : Nat} {G : Mat ℝ} (h : Lap n G) {r : ℝ} (hr : 0 ≤ r) : Lap n fun a b => r * G a b := by
  refine ⟨fun i hi => ?_, fun i hi j hj hij => ?_⟩
  · rw [← mul_sum, h.1 i hi, mul_zero]
  · exact mul_nonpos_of_nonneg_of_nonpos hr (h.2 i hi j hj hij)

theorem gen_small (u : ℝ) {i : Nat} (hi : i < nodes.length) : ∑ j ∈ range nodes.length, |gen evs nodes u i j| ≤ 2 := by
  have h := walkLaplacian_close (n := nodes.length) (InContact evs nodes u) (fun _ _ => False) hi
  rw [rowDist_congr (EqOn.refl _ _) (lap_empty fun _ _ => id) hi] at h
  unfold rowDist at h
  simpa [gen] using h

theorem step_rates {r r' : ℝ} (hr : 0 ≤ r) (hr' : 0 ≤ r') {s u : ℝ} (hsu : s ≤ u) {i : Nat} (hi : i < nodes.length) :
    rowDist nodes.length (expm nodes.length fun a b => -((u - s) * r) * gen evs nodes s a b)
      (expm nodes.length fun a b => -((u - s) * r') * gen evs nodes s a b) i ≤ 2 * |r - r'| * (u - s) := by
  have hl : Lap nodes.length (gen evs nodes s) := walkLaplacian_lap _ _
  have h := expm_close (lap_smul hl hr) (lap_smul hl hr') (sub_nonneg.2 hsu) (c := 2 * |r - r'|) (by positivity) (fun i hi => by
    unfold rowDist
    calc ∑ j ∈ range nodes.length, |r * gen evs nodes s i j - r' * gen evs nodes s i j|
        = |r - r'| * ∑ j ∈ range nodes.length, |gen evs nodes s i j| := by
          rw [mul_sum]
          refine sum_congr rfl fun j _ => ?_
          rw [← sub_mul, abs_mul]
      _ ≤ |r - r'| * 2 := mul_le_mul_of_nonneg_left (gen_small s hi) (abs_nonneg _)
      _ = _ := mul_comm _ _) hi
  refine le_trans (le_of_eq ?_) h
  have e : ∀ r : ℝ, (fun a b => -((u - s) * r) * gen evs nodes s a b) = fun a b => -(u - s) * (r * gen evs nodes s a b) := by
    intro r
    funext a b
    ring
  rw [e, e]

/-- The walks at two rates. -/
theorem walks_rates (hc : Covers evs ts) {r r' : ℝ} (hr : 0 ≤ r) (hr' : 0 ≤ r') {reverse : Bool} {P P' : ℝ → Mat ℝ}
    (hP : Walk nodes.length r (gen evs nodes) (at' ts 0) (at' ts (ts.length - 1)) reverse P)
    (hP' : Walk nodes.length r' (gen evs nodes) (at' ts 0) (at' ts (ts.length - 1)) reverse P')
    {s u : ℝ} (h1 : at' ts 0 ≤ s) (h2 : s ≤ u) (h3 : u ≤ at' ts (ts.length - 1)) {i : Nat} (hi : i < nodes.length) :
    rowDist nodes.length (P (if reverse then s else u)) (P' (if reverse then s else u)) i ≤
      rowDist nodes.length (P (if reverse then u else s)) (P' (if reverse then u else s)) i + 2 * |r - r'| * (u - s) := by
  have hG := covers_grid hc nodes
  have hlap : ∀ u, Lap nodes.length (gen evs nodes u) := fun _ => walkLaplacian_lap _ _
  refine chain (R := fun s u => at' ts 0 ≤ s → u ≤ at' ts (ts.length - 1) → rowDist nodes.length (P (if reverse then s else u)) (P' (if reverse then s else u)) i ≤
      rowDist nodes.length (P (if reverse then u else s)) (P' (if reverse then u else s)) i + 2 * |r - r'| * (u - s))
    ?_ ?_ hG.mono ?_ s u h1 h2 h3 h1 h3
  · intro s y u hsy hyu r1 r2 ha hb
    have r1 := r1 ha (hyu.trans hb)
    have r2 := r2 (ha.trans hsy) hb
    cases reverse
    · simp only [Bool.false_eq_true, if_false] at r1 r2 ⊢
      linarith
    · simp only [if_true] at r1 r2 ⊢
      linarith
  · intro s _ _
    rw [sub_self, ite_self]
    simp
  · intro k hk s u h1 h2 h3 ha hb
    have m := hP.moves s u ha h2 hb (hG.same hk h1 h3)
    have m' := hP'.moves s u ha h2 hb (hG.same hk h1 h3)
    have hU' := move_stoch hr' hlap h2
    have hst : ∀ v, at' ts 0 ≤ v → v ≤ at' ts (ts.length - 1) → Stoch nodes.length (P v) := fun v a b =>
      walk_stoch hr hlap hG hP a b
    cases reverse
    · simp only [Bool.false_eq_true, if_false] at m m' ⊢
      rw [rowDist_congr m m' hi]
      exact rowDist_mul (hst s ha (h2.trans hb)) hU' (fun k' hk' => step_rates hr hr' h2 hk') hi
    · simp only [if_true] at m m' ⊢
      rw [rowDist_congr m m' hi]
      exact rowDist_mul (hst u (ha.trans h2) hb) hU' (fun k' hk' => step_rates hr hr' h2 hk') hi

/-- At every time of the walk. -/
theorem walk_rates (hc : Covers evs ts) {r r' : ℝ} (hr : 0 ≤ r) (hr' : 0 ≤ r') {reverse : Bool} {P P' : ℝ → Mat ℝ}
    (hP : Walk nodes.length r (gen evs nodes) (at' ts 0) (at' ts (ts.length - 1)) reverse P)
    (hP' : Walk nodes.length r' (gen evs nodes) (at' ts 0) (at' ts (ts.length - 1)) reverse P')
    {u : ℝ} (h1 : at' ts 0 ≤ u) (h3 : u ≤ at' ts (ts.length - 1)) {i : Nat} (hi : i < nodes.length) :
    rowDist nodes.length (P u) (P' u) i ≤ 2 * |r - r'| * (at' ts (ts.length - 1) - at' ts 0) := by
  have hstart := rowDist_eq (hP.start.trans hP'.start.symm) hi
  cases reverse
  · have := walks_rates hc hr hr' hP hP' le_rfl h1 h3 hi
    simp only [Bool.false_eq_true, if_false] at this hstart
    rw [hstart, zero_add] at this
    exact this.trans (mul_le_mul_of_nonneg_left (by linarith) (by positivity))
  · have := walks_rates hc hr hr' hP hP' h1 h3 le_rfl hi
    simp only [if_true] at this hstart
    rw [hstart, zero_add] at this
    exact this.trans (mul_le_mul_of_nonneg_left (by linarith) (by positivity))

/-- A walk that never moves. -/
theorem walk_still (a b : ℝ) (reverse : Bool) : Walk nodes.length 0 (gen evs nodes) a b reverse fun _ => eye := by
  refine ⟨EqOn.refl _ _, fun s u _ _ _ _ => ?_⟩
  have h : EqOn nodes.length (mul nodes.length eye (expm nodes.length fun i j => -((u - s) * 0) * gen evs nodes s i j)) eye :=
    (mul_congr (EqOn.refl _ _) (expm_zero fun i _ j _ => by simp)).trans (mul_eye _)
  cases reverse <;> exact h.symm

end Verif.Smooth
