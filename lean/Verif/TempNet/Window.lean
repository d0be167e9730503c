import Verif.TempNet.Props

/-!
# C119: the window of an analysis covers what was asked for

`FlowStability.t_start` and `FlowStability.t_stop` (flow_stability.py:377-440) document the
window that the Laplacians cover; the network resolves both boundaries with
`_get_closest_time` (temporal_network.py:1125-1139, 1206-1222).
-/

set_option linter.dupNamespace false

namespace Verif.TempNet

variable {K : Type} [Field K] [LinearOrder K] [IsStrictOrderedRing K]

theorem window_some (times : List K) (h : times.Pairwise (· < ·)) (hne : times ≠ []) (a b : K) :
    ∃ (i j : Nat) (hi : i < times.length) (hj : j < times.length),
      window times (some a) (some b) = .ok ((times[i], i), (times[j], j)) ∧
      closestTime times a = .ok (times[i], i) ∧ closestTime times b = .ok (times[j], j) := by
  obtain ⟨i, hi, h1, _⟩ := closestTime_spec times h hne a
  obtain ⟨j, hj, h2, _⟩ := closestTime_spec times h hne b
  refine ⟨i, j, hi, hj, ?_, h1, h2⟩
  cases times with
  | nil => exact absurd rfl hne
  | cons t0 rest =>
    simp only [window, resolve, h1, h2]

/-- **C119** (start).  With a start that is not before the first event time, the window begins
at the last event time that is not after it, so that it covers the start. -/
theorem C119_start (times : List K) (h : times.Pairwise (· < ·)) (a b : K)
    (ha : ∃ u ∈ times, u ≤ a) :
    ∃ w, window times (some a) (some b) = .ok w ∧ w.1.1 ∈ times ∧ w.1.1 ≤ a ∧
      ∀ u ∈ times, u ≤ a → u ≤ w.1.1 := by
  obtain ⟨u0, hu0, hua⟩ := ha
  have hne := List.ne_nil_of_mem hu0
  obtain ⟨i, j, hi, hj, hw, hc, _⟩ := window_some times h hne a b
  obtain ⟨k, hk, h1, h2, h3⟩ := C32_closest_time times h hne a
  rw [hc] at h1
  simp only [Except.ok.injEq, Prod.mk.injEq] at h1
  obtain ⟨_, rfl⟩ := h1
  refine ⟨_, hw, List.getElem_mem hi, ?_, h3⟩
  rcases h2 with h2 | ⟨_, h2⟩
  · exact h2
  · exact absurd hua (not_le.2 (h2 u0 hu0))

/-- **C119** (stop, exactly).  The window reaches the requested end exactly if that end is an
event time or not after the first one. -/
theorem C119_reaches_stop_iff (times : List K) (h : times.Pairwise (· < ·)) (hne : times ≠ [])
    (a b : K) :
    ∃ w, window times (some a) (some b) = .ok w ∧
      (b ≤ w.2.1 ↔ b ∈ times ∨ ∀ u ∈ times, b ≤ u) := by
  obtain ⟨i, j, hi, hj, hw, _, hc⟩ := window_some times h hne a b
  obtain ⟨k, hk, h1, h2, h3⟩ := C32_closest_time times h hne b
  rw [hc] at h1
  simp only [Except.ok.injEq, Prod.mk.injEq] at h1
  obtain ⟨_, rfl⟩ := h1
  refine ⟨_, hw, ?_⟩
  constructor
  · intro hb
    rcases h2 with h2 | ⟨_, h2⟩
    · left
      rw [le_antisymm hb h2]
      exact List.getElem_mem hj
    · right
      exact fun u hu => (h2 u hu).le
  · rintro (hb | hb)
    · exact h3 b hb le_rfl
    · exact hb _ (List.getElem_mem hj)

/-- **C119 is violated for the end of the window.**  `t_stop` is documented as covering up to
the first event time after or equal to it.  For every end strictly between two consecutive
event times the window ends at the earlier one: the part of the last interval before the end
is not covered, and the index is one less than documented. -/
theorem C119_stop_violated (times : List K) (h : times.Pairwise (· < ·)) (k : Nat)
    (hk : k + 1 < times.length) (a b : K) (h1 : times[k] < b) (h2 : b < times[k + 1]) :
    ∃ w, window times (some a) (some b) = .ok w ∧ w.2 = (times[k], k) ∧ w.2.1 < b := by
  have hne : times ≠ [] := by rintro rfl; simp at hk
  obtain ⟨i, j, hi, hj, hw, _, hc⟩ := window_some times h hne a b
  obtain ⟨l, hl, e1, e2, e3⟩ := closestTime_spec times h hne b
  rw [hc] at e1
  simp only [Except.ok.injEq, Prod.mk.injEq] at e1
  obtain ⟨_, rfl⟩ := e1
  have hkj : k ≤ j := e3 k (by omega) h1.le
  have hjk : j ≤ k := by
    by_contra hcon
    have hle : times[k + 1] ≤ times[j] := getElem_le_of_pairwise h hk hj (by omega)
    rcases e2 with e2 | e2
    · exact absurd (lt_of_lt_of_le h2 hle) (not_lt.2 e2)
    · omega
  have : j = k := by omega
  subst this
  exact ⟨_, hw, rfl, h1⟩

/-- The end 2 of a window on the times 0, 1 and 3. -/
example : ([0, 1, 3] : List ℚ).Pairwise (· < ·) ∧
    window ([0, 1, 3] : List ℚ) (some 0) (some 2) = .ok ((0, 0), (1, 1)) :=
  ⟨by decide +kernel, by decide +kernel⟩

end Verif.TempNet
