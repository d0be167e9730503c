import Verif.TempNet.LoopLemmas
import Mathlib.Data.Rat.Defs
import Mathlib.Algebra.Order.Ring.Rat
import Mathlib.Tactic.NormNum
import Mathlib.Tactic.IntervalCases

/-!
# Temporal networks: properties C31 to C34, C36, C56 and C57
-/

set_option linter.dupNamespace false
set_option linter.unusedSectionVars false
set_option linter.unusedSimpArgs false

namespace Verif.TempNet

variable {K : Type} [Field K] [LinearOrder K] [IsStrictOrderedRing K]

/-! ## C31 -/

section
variable {L : Type} [LinearOrder L]

theorem mem_allLabels (evs : List (Event L K)) (l : L) :
    l ∈ allLabels evs ↔ ∃ e ∈ evs, l = e.src ∨ l = e.tgt := by
  unfold allLabels
  rw [mem_uniqueSorted, List.mem_append, List.mem_map, List.mem_map]
  constructor
  · rintro (⟨e, he, rfl⟩ | ⟨e, he, rfl⟩)
    · exact ⟨e, he, .inl rfl⟩
    · exact ⟨e, he, .inr rfl⟩
  · rintro ⟨e, he, rfl | rfl⟩
    · exact .inl ⟨e, he, rfl⟩
    · exact .inr ⟨e, he, rfl⟩

/-- The relabelled event. -/
def relabelled (labels : List L) (e : Event L K) : Event Nat K :=
  ⟨labels.idxOf e.src, labels.idxOf e.tgt, e.start, e.stop⟩

theorem events_perm (evs : List (Event L K)) :
    (ofEvents evs).events.Perm (evs.map (relabelled (allLabels evs))) :=
  List.perm_insertionSort _ _

theorem le_trans' : ∀ a b c : Event Nat K, a.le b → b.le c → a.le c := by
  intro a b c h1 h2
  unfold Event.le at *
  rcases h1 with h1 | ⟨h1, h1'⟩ <;> rcases h2 with h2 | ⟨h2, h2'⟩
  · exact .inl (h1.trans h2)
  · exact .inl (h2 ▸ h1)
  · exact .inl (h1 ▸ h2)
  · exact .inr ⟨h1.trans h2, h1'.trans h2'⟩

theorem le_total' : ∀ a b : Event Nat K, a.le b ∨ b.le a := by
  intro a b
  unfold Event.le
  rcases lt_trichotomy a.start b.start with h | h | h
  · exact .inl (.inl h)
  · rcases le_total a.stop b.stop with h2 | h2
    · exact .inl (.inr ⟨h, h2⟩)
    · exact .inr (.inr ⟨h.symm, h2⟩)
  · exact .inr (.inl h)

theorem mem_events (evs : List (Event L K)) (e : Event Nat K) :
    e ∈ (ofEvents evs).events ↔ ∃ f ∈ evs, relabelled (allLabels evs) f = e := by
  rw [(events_perm evs).mem_iff, List.mem_map]

theorem idx_lt (evs : List (Event L K)) (e : Event L K) (he : e ∈ evs) :
    (allLabels evs).idxOf e.src < (allLabels evs).length ∧
    (allLabels evs).idxOf e.tgt < (allLabels evs).length :=
  ⟨List.idxOf_lt_length_iff.2 ((mem_allLabels evs _).2 ⟨e, he, .inl rfl⟩),
    List.idxOf_lt_length_iff.2 ((mem_allLabels evs _).2 ⟨e, he, .inr rfl⟩)⟩

theorem mem_nodeArray (evs : List (Event Nat K)) (i : Nat) :
    i ∈ nodeArray evs ↔ ∃ e ∈ evs, i = e.src ∨ i = e.tgt := mem_allLabels evs i

theorem nodup_nodeArray (evs : List (Event Nat K)) : (nodeArray evs).Nodup := uniqueSorted_nodup _

theorem numNodes_eq (evs : List (Event L K)) :
    (ofEvents evs).numNodes = (allLabels evs).length := by
  have hperm : (nodeArray (ofEvents evs).events).Perm (List.range (allLabels evs).length) := by
    rw [List.perm_ext_iff_of_nodup (nodup_nodeArray _) List.nodup_range]
    intro i
    rw [mem_nodeArray, List.mem_range]
    constructor
    · rintro ⟨e, he, h⟩
      obtain ⟨f, hf, rfl⟩ := (mem_events evs e).1 he
      have := idx_lt evs f hf
      rcases h with rfl | rfl
      · exact this.1
      · exact this.2
    · intro hi
      have hmem := List.getElem_mem hi
      have hidx : (allLabels evs).idxOf (allLabels evs)[i] = i :=
        List.Nodup.idxOf_getElem (uniqueSorted_nodup _) i hi
      obtain ⟨f, hf, h⟩ := (mem_allLabels evs _).1 hmem
      refine ⟨relabelled (allLabels evs) f, (mem_events evs _).2 ⟨f, hf, rfl⟩, ?_⟩
      rcases h with h | h
      · left; unfold relabelled; dsimp only; rw [← h, hidx]
      · right; unfold relabelled; dsimp only; rw [← h, hidx]
  have := hperm.length_eq
  rw [List.length_range] at this
  exact this

/-- **C31**.  The stored labels are the labels of the events in increasing order; node `n`
stands for label number `n`; mapping the table back gives the given events, reordered by
starting time and then ending time; the nodes of the table are `0..num_nodes-1`. -/
theorem C31_relabelling (evs : List (Event L K)) :
    let N := ofEvents evs
    N.labels.Pairwise (· < ·) ∧
    (∀ l, l ∈ N.labels ↔ ∃ e ∈ evs, l = e.src ∨ l = e.tgt) ∧
    N.numNodes = N.labels.length ∧
    (∀ i, (∃ e ∈ N.events, i = e.src ∨ i = e.tgt) ↔ i < N.numNodes) ∧
    (N.events.map fun e => (N.labels[e.src]?, N.labels[e.tgt]?, e.start, e.stop)).Perm
      (evs.map fun e => (some e.src, some e.tgt, e.start, e.stop)) ∧
    N.events.Pairwise fun a b => a.start < b.start ∨ (a.start = b.start ∧ a.stop ≤ b.stop) := by
  refine ⟨uniqueSorted_lt _, mem_allLabels evs, numNodes_eq evs, ?_, ?_, ?_⟩
  · intro i
    rw [← mem_nodeArray]
    have hperm : (nodeArray (ofEvents evs).events).Perm (List.range (ofEvents evs).numNodes) := by
      rw [List.perm_ext_iff_of_nodup (nodup_nodeArray _) List.nodup_range]
      intro i
      rw [mem_nodeArray, List.mem_range, numNodes_eq]
      constructor
      · rintro ⟨e, he, h⟩
        obtain ⟨f, hf, rfl⟩ := (mem_events evs e).1 he
        have := idx_lt evs f hf
        rcases h with rfl | rfl
        · exact this.1
        · exact this.2
      · intro hi
        have hidx : (allLabels evs).idxOf (allLabels evs)[i] = i :=
          List.Nodup.idxOf_getElem (uniqueSorted_nodup _) i hi
        obtain ⟨f, hf, h⟩ := (mem_allLabels evs _).1 (List.getElem_mem hi)
        refine ⟨relabelled (allLabels evs) f, (mem_events evs _).2 ⟨f, hf, rfl⟩, ?_⟩
        rcases h with h | h
        · left; unfold relabelled; dsimp only; rw [← h, hidx]
        · right; unfold relabelled; dsimp only; rw [← h, hidx]
    rw [hperm.mem_iff, List.mem_range]
  · refine ((events_perm evs).map _).trans ?_
    rw [List.map_map]
    apply List.Perm.of_eq
    apply List.map_congr_left
    intro e he
    have h1 := (idx_lt evs e he).1
    have h2 := (idx_lt evs e he).2
    show ((allLabels evs)[(allLabels evs).idxOf e.src]?, (allLabels evs)[(allLabels evs).idxOf e.tgt]?,
      e.start, e.stop) = _
    rw [List.getElem?_eq_getElem h1, List.getElem?_eq_getElem h2, List.getElem_idxOf, List.getElem_idxOf]
  · have : IsTrans (Event Nat K) Event.le := ⟨le_trans'⟩
    have : Std.Total (Event.le (L := Nat) (K := K)) := ⟨le_total'⟩
    exact List.pairwise_insertionSort Event.le _

/-- Corollary: the order of the labels is the order of the nodes. -/
theorem C31_order_preserved (evs : List (Event L K)) (i j : Nat) (hi : i < (ofEvents evs).labels.length)
    (hj : j < (ofEvents evs).labels.length) :
    (ofEvents evs).labels[i] < (ofEvents evs).labels[j] ↔ i < j := by
  have hs := (C31_relabelling evs).1
  constructor
  · intro h
    by_contra hc
    exact absurd h (not_lt.2 (getElem_le_of_pairwise hs hj hi (by omega)))
  · exact getElem_lt_of_pairwise hs hi hj

end

/-- The columns are accepted exactly when they have equal lengths. -/
theorem C31_columns {L : Type} (s t : List L) (b e : List K) :
    (∃ r, zipEvents s t b e = .ok r) ↔
      s.length = t.length ∧ t.length = b.length ∧ b.length = e.length := by
  induction s generalizing t b e with
  | nil => cases t <;> cases b <;> cases e <;> simp [zipEvents]
  | cons x s ih =>
    cases t with
    | nil => simp [zipEvents]
    | cons y t =>
      cases b with
      | nil => simp [zipEvents]
      | cons z b =>
        cases e with
        | nil => simp [zipEvents]
        | cons w e =>
          simp only [zipEvents, List.length_cons, Nat.add_right_cancel_iff]
          rw [← ih t b e]
          constructor
          · rintro ⟨r, hr⟩
            cases h : zipEvents s t b e with
            | ok q => exact ⟨q, rfl⟩
            | error q => rw [h] at hr; cases hr
          · rintro ⟨r, hr⟩
            rw [hr]
            exact ⟨_, rfl⟩

example : (ofEvents ([⟨-3, 10, 3, 4⟩, ⟨10, -7, 1, 2⟩] : List (Event Int ℚ))).events =
    [⟨2, 0, 1, 2⟩, ⟨1, 2, 3, 4⟩] := by decide +kernel

/-! ## C32 -/

/-- The grid holds exactly the starting and ending times, increasing. -/
theorem C32_time_grid (evs : List (Event Nat K)) :
    (timesOf evs).Pairwise (· < ·) ∧
    ∀ t, t ∈ timesOf evs ↔ ∃ e ∈ evs, t = e.start ∨ t = e.stop := by
  refine ⟨uniqueSorted_lt _, fun t => ?_⟩
  unfold timesOf
  rw [mem_uniqueSorted, List.mem_append, List.mem_map, List.mem_map]
  constructor
  · rintro (⟨e, he, rfl⟩ | ⟨e, he, rfl⟩)
    · exact ⟨e, he, .inl rfl⟩
    · exact ⟨e, he, .inr rfl⟩
  · rintro ⟨e, he, rfl | rfl⟩
    · exact .inl ⟨e, he, rfl⟩
    · exact .inr ⟨e, he, rfl⟩

/-- **C32**. -/
theorem C32_closest_time (times : List K) (h : times.Pairwise (· < ·)) (hne : times ≠ []) (t : K) :
    ∃ (k : Nat) (hk : k < times.length), closestTime times t = .ok (times[k], k) ∧
      (times[k] ≤ t ∨ (k = 0 ∧ ∀ u ∈ times, t < u)) ∧
      ∀ u ∈ times, u ≤ t → u ≤ times[k] := by
  obtain ⟨k, hk, h1, h2, h3⟩ := closestTime_spec times h hne t
  refine ⟨k, hk, h1, ?_, ?_⟩
  · by_cases h4 : times[k] ≤ t
    · exact .inl h4
    · refine .inr ⟨h2.resolve_left h4, fun u hu => ?_⟩
      obtain ⟨i, hi, rfl⟩ := List.getElem_of_mem hu
      by_contra hc
      have h5 := h3 i hi (not_lt.1 hc)
      have h6 := h2.resolve_left h4
      have : i = k := by omega
      subst this
      exact hc (not_le.1 h4)
  · intro u hu hut
    obtain ⟨i, hi, rfl⟩ := List.getElem_of_mem hu
    exact getElem_le_of_pairwise h hi hk (h3 i hi hut)

example : ([0, 1, 3] : List ℚ).Pairwise (· < ·) ∧ closestTime ([0, 1, 3] : List ℚ) 2 = .ok (1, 1) :=
  ⟨by decide +kernel, by decide +kernel⟩

/-! ## C33 -/

theorem computeLaplacians_eq {n : Nat} {evs : List (Event Nat K)} (hr : InRange n evs)
    (hnl : NoSelfLoops evs) (hne : evs ≠ []) (sf : Nat → Bool) (tStart tStop : Option K) :
    ∃ (k m : Nat) (hk : k < (timesOf evs).length) (hm : m < (timesOf evs).length) (s : LapState K),
      Tracks n (Before evs (timesOf evs)[k]) s ∧ Resolves (timesOf evs) k 0 tStart ∧
      Resolves (timesOf evs) m ((timesOf evs).length - 1) tStop ∧
      computeLaplacians n evs sf tStart tStop =
        match lapLoop n evs sf s (((timesOf evs).take m).drop k) with
        | .error e => .error e
        | .ok states => .ok ⟨(timesOf evs)[k], k, (timesOf evs)[m], m,
            states.map LapState.laplacian, states.map LapState.A⟩ := by
  have hsorted : (timesOf evs).Pairwise (· < ·) := uniqueSorted_lt _
  have hne' : timesOf evs ≠ [] := by
    obtain ⟨e, he⟩ := List.exists_mem_of_ne_nil _ hne
    exact List.ne_nil_of_mem (start_mem_times he)
  obtain ⟨k, m, hk, hm, hw, hk2, hm2⟩ := window_spec _ hsorted hne' tStart tStop
  obtain ⟨s, hs1, hs2⟩ := initialState_spec hr hnl k hk
  refine ⟨k, m, hk, hm, s, hs2, hk2, hm2, ?_⟩
  unfold computeLaplacians
  dsimp only
  rw [hw]
  dsimp only
  rw [hs1]
  dsimp only
  rw [filter_window _ hsorted k m hk hm]
  rfl

/-- **C33**.  The computation succeeds; the window is that of the largest event times not
exceeding the requested ones; there is one Laplacian per inter-event interval of the window,
and it is the random-walk Laplacian of the contacts active at any moment of the interval. -/
theorem C33_active_contacts_partial {n : Nat} {evs : List (Event Nat K)} (h : Proper n evs)
    (hne : evs ≠ []) (sf : Nat → Bool) (tStart tStop : Option K) :
    ∃ L, computeLaplacians n evs sf tStart tStop = .ok L ∧
      Resolves (timesOf evs) L.kStart 0 tStart ∧
      Resolves (timesOf evs) L.kStop ((timesOf evs).length - 1) tStop ∧
      L.laplacians.length = L.kStop - L.kStart ∧
      ∀ (i : Nat) (hi : i < L.laplacians.length) (hk : L.kStart + i + 1 < (timesOf evs).length) (u : K),
        (timesOf evs)[L.kStart + i] ≤ u → u < (timesOf evs)[L.kStart + i + 1] →
        ∀ a b, L.laplacians[i] a b = walkLaplacian n (Active evs u) a b := by
  have hsorted : (timesOf evs).Pairwise (· < ·) := uniqueSorted_lt _
  obtain ⟨k, m, hk, hm, s, hs, hk2, hm2, heq⟩ :=
    computeLaplacians_eq h.inRange h.noLoops hne sf tStart tStop
  have hloop : ∃ states, lapLoop n evs sf s (((timesOf evs).take m).drop k) = .ok states ∧
      states.length = m - k ∧
      ∀ (i : Nat) (hi : i < states.length) (hki : k + i < (timesOf evs).length),
        Tracks n (Active evs (timesOf evs)[k + i]) states[i] := by
    rcases Nat.lt_or_ge m k with hmk | hmk
    · refine ⟨[], ?_, by simp; omega, by simp⟩
      rw [List.drop_eq_nil_iff.2 (by simp; omega)]; rfl
    · obtain ⟨st, h1, h2, h3⟩ := lapLoop_spec h sf m (m - k) k (by omega) hm s (fun _ => hs)
      exact ⟨st, h1, h2, h3⟩
  obtain ⟨states, h1, h2, h3⟩ := hloop
  rw [h1] at heq
  refine ⟨_, heq, hk2, hm2, by simp [h2], ?_⟩
  intro i hi hki u hu1 hu2 a b
  have hi' : i < states.length := by simpa using hi
  simp only [List.getElem_map]
  have h4 := h3 i hi' (by dsimp only at hki; omega)
  have hg := (gap_of_sorted hsorted (k + i) hki).2
  have h5 : Tracks n (Active evs u) states[i] := by
    refine ⟨h4.1, fun a b => ?_⟩
    rw [h4.2 a b]
    have h6 : Active evs u a b ↔ Active evs (timesOf evs)[k + i] a b :=
      active_between _ _ u hu1 hu2 hg a b
    by_cases h7 : Active evs u a b
    · rw [if_pos h7, if_pos (h6.1 h7)]
    · rw [if_neg h7, if_neg fun hc => h7 (h6.2 hc)]
  exact laplacian_of_tracks h5 a b

/-- Two touching contacts of a pair and another contact. -/
def exEvents : List (Event Nat ℚ) := [⟨0, 1, 0, 2⟩, ⟨1, 2, 1, 3⟩, ⟨1, 0, 2, 4⟩]

theorem exEvents_proper : Proper 3 exEvents := by
  refine ⟨by unfold InRange; decide +kernel, by unfold NoSelfLoops; decide +kernel,
    by unfold Lasting; decide +kernel, ?_⟩
  unfold Separate Event.Pair
  decide +kernel

example : Proper 3 exEvents ∧ exEvents ≠ [] ∧ timesOf exEvents = [0, 1, 2, 3, 4] :=
  ⟨exEvents_proper, by decide, by decide +kernel⟩

/-- **C33** is violated when events of a pair overlap: the pair is disconnected when the
first one ends. -/
theorem C33_overlap_violated : ∃ evs : List (Event Nat ℚ), InRange 2 evs ∧ NoSelfLoops evs ∧
    Lasting evs ∧ timesOf evs = [0, 1, 2, 3] ∧ Active evs 2 0 1 ∧
    ∃ L, computeLaplacians 2 evs (fun _ => true) none none = .ok L ∧
      L.laplacians.map (fun M => M 0 1) = [-1, -1, 0] := by
  refine ⟨[⟨0, 1, 0, 2⟩, ⟨0, 1, 1, 3⟩], by unfold InRange; decide +kernel,
    by unfold NoSelfLoops; decide +kernel, by unfold Lasting; decide +kernel, by decide +kernel, ?_, ?_⟩
  · exact ⟨⟨0, 1, 1, 3⟩, by simp, .inl ⟨rfl, rfl⟩, by norm_num, by norm_num⟩
  · obtain ⟨k, m, hk, hm, s, -, -, -, heq⟩ := computeLaplacians_eq (n := 2)
      (evs := ([⟨0, 1, 0, 2⟩, ⟨0, 1, 1, 3⟩] : List (Event Nat ℚ))) (by unfold InRange; decide +kernel)
      (by unfold NoSelfLoops; decide +kernel) (by simp) (fun _ => true) none none
    have : (match computeLaplacians 2 ([⟨0, 1, 0, 2⟩, ⟨0, 1, 1, 3⟩] : List (Event Nat ℚ)) (fun _ => true)
        none none with
      | .ok L => decide (L.laplacians.map (fun M => M 0 1) = [-1, -1, 0])
      | .error _ => false) = true := by decide +kernel
    cases hL : computeLaplacians 2 ([⟨0, 1, 0, 2⟩, ⟨0, 1, 1, 3⟩] : List (Event Nat ℚ)) (fun _ => true)
        none none with
    | error e => rw [hL] at this; cases this
    | ok L => rw [hL] at this; exact ⟨L, rfl, by simpa using this⟩

/-- **C33** is violated for an events table that is not in time order, even if contacts of a
pair only touch: the start of the second contact is handled before the end of the first. -/
theorem C33_unsorted_table_violated : ∃ evs : List (Event Nat ℚ), InRange 2 evs ∧ NoSelfLoops evs ∧
    Lasting evs ∧ (∀ e ∈ evs, ∀ f ∈ evs, e ≠ f → e.stop ≤ f.start ∨ f.stop ≤ e.start) ∧
    timesOf evs = [0, 1, 2] ∧ Active evs 1 0 1 ∧
    ∃ L, computeLaplacians 2 evs (fun _ => true) none none = .ok L ∧
      L.laplacians.map (fun M => M 0 1) = [-1, 0] := by
  refine ⟨[⟨0, 1, 1, 2⟩, ⟨0, 1, 0, 1⟩], by unfold InRange; decide +kernel,
    by unfold NoSelfLoops; decide +kernel, by unfold Lasting; decide +kernel, by decide +kernel,
    by decide +kernel, ?_, ?_⟩
  · exact ⟨⟨0, 1, 1, 2⟩, by simp, .inl ⟨rfl, rfl⟩, by norm_num, by norm_num⟩
  · have : (match computeLaplacians 2 ([⟨0, 1, 1, 2⟩, ⟨0, 1, 0, 1⟩] : List (Event Nat ℚ)) (fun _ => true)
        none none with
      | .ok L => decide (L.laplacians.map (fun M => M 0 1) = [-1, 0])
      | .error _ => false) = true := by decide +kernel
    cases hL : computeLaplacians 2 ([⟨0, 1, 1, 2⟩, ⟨0, 1, 0, 1⟩] : List (Event Nat ℚ)) (fun _ => true)
        none none with
    | error e => rw [hL] at this; cases this
    | ok L => rw [hL] at this; exact ⟨L, rfl, by simpa using this⟩

/-- Tables built by the constructor from columns are in time order, so for them contacts of a
pair may touch: it is enough that they do not overlap. -/
theorem C33_constructor_tables {L : Type} [LinearOrder L] (evs : List (Event L K))
    (hl : ∀ e ∈ evs, e.start < e.stop) (hnl : ∀ e ∈ evs, e.src ≠ e.tgt)
    (hsep : evs.Pairwise fun e f =>
      ((e.src = f.src ∧ e.tgt = f.tgt) ∨ (e.src = f.tgt ∧ e.tgt = f.src)) →
        e.stop ≤ f.start ∨ f.stop ≤ e.start) :
    Proper (ofEvents evs).numNodes (ofEvents evs).events := by
  have hR := C31_relabelling evs
  refine ⟨?_, ?_, ?_, ?_⟩
  · intro e he
    have h4 := hR.2.2.2.1
    exact ⟨(h4 _).1 ⟨e, he, .inl rfl⟩, (h4 _).1 ⟨e, he, .inr rfl⟩⟩
  · intro e he
    obtain ⟨f, hf, rfl⟩ := (mem_events evs e).1 he
    intro hc
    unfold relabelled at hc
    exact hnl f hf ((List.idxOf_inj ((mem_allLabels evs f.src).2 ⟨f, hf, .inl rfl⟩)).1 hc)
  · intro e he
    obtain ⟨f, hf, rfl⟩ := (mem_events evs e).1 he
    exact hl f hf
  · -- first without order, then with
    have hinj : ∀ f g : Event L K, f ∈ evs → g ∈ evs →
        (relabelled (allLabels evs) f).Pair (relabelled (allLabels evs) g).src
          (relabelled (allLabels evs) g).tgt →
        (f.src = g.src ∧ f.tgt = g.tgt) ∨ (f.src = g.tgt ∧ f.tgt = g.src) := by
      have hi : ∀ x y, x ∈ allLabels evs → y ∈ allLabels evs →
          (allLabels evs).idxOf x = (allLabels evs).idxOf y → x = y := by
        intro x y hx hy hxy
        exact (List.idxOf_inj hx).1 hxy
      intro f g hf hg hp
      have m1 := (mem_allLabels evs f.src).2 ⟨f, hf, .inl rfl⟩
      have m2 := (mem_allLabels evs f.tgt).2 ⟨f, hf, .inr rfl⟩
      have m3 := (mem_allLabels evs g.src).2 ⟨g, hg, .inl rfl⟩
      have m4 := (mem_allLabels evs g.tgt).2 ⟨g, hg, .inr rfl⟩
      unfold Event.Pair relabelled at hp
      dsimp only at hp
      rcases hp with ⟨h1, h2⟩ | ⟨h1, h2⟩
      · exact .inl ⟨hi _ _ m1 m3 h1, hi _ _ m2 m4 h2⟩
      · exact .inr ⟨hi _ _ m1 m4 h1, hi _ _ m2 m3 h2⟩
    have hsym : ∀ {e f : Event Nat K}, (e.Pair f.src f.tgt → e.stop ≤ f.start ∨ f.stop ≤ e.start) →
        (f.Pair e.src e.tgt → f.stop ≤ e.start ∨ e.stop ≤ f.start) := by
      intro e f h hp
      refine (h ?_).symm
      unfold Event.Pair at hp ⊢
      omega
    have hweak : (ofEvents evs).events.Pairwise fun e f =>
        e.Pair f.src f.tgt → e.stop ≤ f.start ∨ f.stop ≤ e.start := by
      refine (events_perm evs).symm.pairwise ?_ (fun h => hsym h)
      rw [List.pairwise_map]
      refine List.Pairwise.imp_of_mem ?_ hsep
      intro f g hf hg h hp
      exact h (hinj f g hf hg hp)
    refine List.Pairwise.imp_of_mem ?_ (hweak.and hR.2.2.2.2.2)
    intro e f he hf h hp
    obtain ⟨h1, h2⟩ := h
    rcases h1 hp with h3 | h3
    · exact .inl h3
    · have hel : ∀ x ∈ (ofEvents evs).events, x.start < x.stop := by
        intro x hx
        obtain ⟨y, hy, rfl⟩ := (mem_events evs x).1 hx
        exact hl y hy
      have h4 := hel f hf
      rcases h2 with h2 | ⟨h2, _⟩
      · exact absurd (h2.trans (h4.trans_le h3)) (lt_irrefl _)
      · rw [h2] at h3
        exact absurd h4 (not_lt.2 h3)

example : let evs : List (Event Int ℚ) := [⟨-5, 7, 1, 2⟩, ⟨7, -5, 0, 1⟩]
    (∀ e ∈ evs, e.start < e.stop) ∧ (∀ e ∈ evs, e.src ≠ e.tgt) ∧
    evs.Pairwise fun e f => ((e.src = f.src ∧ e.tgt = f.tgt) ∨ (e.src = f.tgt ∧ e.tgt = f.src)) →
        e.stop ≤ f.start ∨ f.stop ≤ e.start := by
  refine ⟨by decide +kernel, by decide +kernel, by decide +kernel⟩

/-! ## C34 -/

/-- **C34**.  For events without self-loops, overlapping or not, every Laplacian has vanishing
row sums, nonpositive entries off the diagonal and a diagonal between 0 and 1. -/
theorem C34_laplacian_rows {n : Nat} {evs : List (Event Nat K)} (hr : InRange n evs)
    (hnl : NoSelfLoops evs) (hne : evs ≠ []) (sf : Nat → Bool) (tStart tStop : Option K) :
    ∃ L, computeLaplacians n evs sf tStart tStop = .ok L ∧
      L.laplacians.length = L.kStop - L.kStart ∧
      ∀ M ∈ L.laplacians, (∀ i < n, ∑ j ∈ Finset.range n, M i j = 0) ∧
        (∀ i j, i ≠ j → M i j ≤ 0) ∧ ∀ i, 0 ≤ M i i ∧ M i i ≤ 1 := by
  obtain ⟨k, m, hk, hm, s, hs, -, -, heq⟩ := computeLaplacians_eq hr hnl hne sf tStart tStop
  obtain ⟨states, h1, h2, h3⟩ := lapLoop_ok hr hnl sf (((timesOf evs).take m).drop k) s hs.1
  rw [h1] at heq
  refine ⟨_, heq, ?_, ?_⟩
  · simp only [List.length_map, h2, List.length_drop, List.length_take]
    omega
  · intro M hM
    obtain ⟨x, hx, rfl⟩ := List.mem_map.1 hM
    have := h3 x hx
    exact ⟨fun i hi => laplacian_rows this i hi, fun i j hij => laplacian_offdiag this i j hij,
      fun i => laplacian_diag this i⟩

/-- Overlapping contacts are allowed here. -/
example : let evs : List (Event Nat ℚ) := [⟨0, 1, 0, 2⟩, ⟨1, 0, 1, 3⟩]
    InRange 2 evs ∧ NoSelfLoops evs ∧ evs ≠ [] :=
  ⟨by unfold InRange; decide +kernel, by unfold NoSelfLoops; decide +kernel, by simp⟩

/-- With a self-loop the rows do not sum to zero: the degree counts it twice. -/
theorem C34_self_loop_violated : ∃ evs : List (Event Nat ℚ), InRange 2 evs ∧ Lasting evs ∧
    ∃ L, computeLaplacians 2 evs (fun _ => true) none none = .ok L ∧
      L.laplacians.map (fun M => M 0 0 + M 0 1) = [1/3] := by
  refine ⟨[⟨0, 0, 0, 1⟩, ⟨0, 1, 0, 1⟩], by unfold InRange; decide +kernel,
    by unfold Lasting; decide +kernel, ?_⟩
  have : (match computeLaplacians 2 ([⟨0, 0, 0, 1⟩, ⟨0, 1, 0, 1⟩] : List (Event Nat ℚ)) (fun _ => true)
      none none with
    | .ok L => decide (L.laplacians.map (fun M => M 0 0 + M 0 1) = [1/3])
    | .error _ => false) = true := by decide +kernel
  cases hL : computeLaplacians 2 ([⟨0, 0, 0, 1⟩, ⟨0, 1, 0, 1⟩] : List (Event Nat ℚ)) (fun _ => true)
      none none with
  | error e => rw [hL] at this; cases this
  | ok L => rw [hL] at this; exact ⟨L, rfl, by simpa using this⟩

/-! ## C36 -/

theorem timeIn_eq (a b : K) (hab : a ≤ b) (e : Event Nat K) (he : e.start ≤ e.stop) :
    (if e.start < b ∧ a < e.stop then min e.stop b - max e.start a else 0) = timeIn a b e := by
  unfold timeIn
  split
  · rename_i h
    exact (max_eq_right (sub_nonneg.2 (max_le (le_min he h.1.le) (le_min h.2.le hab)))).symm
  · rename_i h
    rw [not_and_or, not_lt, not_lt] at h
    refine (max_eq_left (sub_nonpos.2 ?_)).symm
    rcases h with h | h
    · exact (min_le_right _ _).trans (h.trans (le_max_left _ _))
    · exact (min_le_left _ _).trans (h.trans (le_max_right _ _))

theorem staticCoo_eq (evs : List (Event Nat K)) (h : ∀ e ∈ evs, e.start ≤ e.stop) (a b : K)
    (hab : a ≤ b) (i j : Nat) :
    staticCoo evs a b i j = ((evs.filter fun e => e.src = i ∧ e.tgt = j).map (timeIn a b)).sum := by
  unfold staticCoo
  induction evs with
  | nil => rfl
  | cons e evs ih =>
    have ih' := ih fun x hx => h x (List.mem_cons_of_mem _ hx)
    have he := timeIn_eq a b hab e (h e List.mem_cons_self)
    rw [List.filter_cons, List.filter_cons]
    by_cases h2 : e.src = i ∧ e.tgt = j
    · rw [if_pos (show decide (e.src = i ∧ e.tgt = j) = true by simpa using h2), List.map_cons,
        List.sum_cons, ← he]
      by_cases h1 : e.start < b ∧ a < e.stop
      · rw [if_pos (show decide (e.start < b ∧ a < e.stop) = true by simpa using h1), if_pos h1,
          List.filter_cons, if_pos (show decide (e.src = i ∧ e.tgt = j) = true by simpa using h2),
          List.map_cons, List.sum_cons, ih']
      · rw [if_neg (show ¬ decide (e.start < b ∧ a < e.stop) = true by simpa using h1), if_neg h1,
          zero_add, ih']
    · rw [if_neg (show ¬ decide (e.src = i ∧ e.tgt = j) = true by simpa using h2)]
      by_cases h1 : e.start < b ∧ a < e.stop
      · rw [if_pos (show decide (e.start < b ∧ a < e.stop) = true by simpa using h1),
          List.filter_cons, if_neg (show ¬ decide (e.src = i ∧ e.tgt = j) = true by simpa using h2), ih']
      · rw [if_neg (show ¬ decide (e.start < b ∧ a < e.stop) = true by simpa using h1), ih']

/-- **C36** (symmetry). -/
theorem C36_symmetric (evs : List (Event Nat K)) (a b : K) (i j : Nat) :
    staticAdjacency evs a b i j = staticAdjacency evs a b j i := by
  unfold staticAdjacency; ring

/-- **C36** (entries): the total time the contacts of the pair spend in the window. -/
theorem C36_contact_time (evs : List (Event Nat K)) (h : ∀ e ∈ evs, e.start ≤ e.stop) (a b : K)
    (hab : a ≤ b) (i j : Nat) (hij : i ≠ j) :
    staticAdjacency evs a b i j = (evs.map fun e =>
      if (e.src = i ∧ e.tgt = j) ∨ (e.src = j ∧ e.tgt = i) then timeIn a b e else 0).sum := by
  unfold staticAdjacency
  rw [staticCoo_eq evs h a b hab, staticCoo_eq evs h a b hab]
  clear h
  induction evs with
  | nil => simp
  | cons e evs ih =>
    rw [List.filter_cons, List.filter_cons, List.map_cons, List.sum_cons, ← ih]
    by_cases h1 : e.src = i ∧ e.tgt = j
    · have h2 : ¬ (e.src = j ∧ e.tgt = i) := by rintro ⟨h3, _⟩; exact hij (h1.1.symm.trans h3)
      simp only [h1, h2, decide_true, decide_false, if_true, Bool.false_eq_true, if_false,
        List.map_cons, List.sum_cons, true_and, and_self, true_or]
      simp only [hij, false_and, decide_false, Bool.false_eq_true, if_false]
      ring
    · by_cases h2 : e.src = j ∧ e.tgt = i
      · simp only [h1, h2, decide_true, decide_false, if_true, Bool.false_eq_true, if_false,
          List.map_cons, List.sum_cons, true_and, and_self, or_true]
        simp only [hij.symm, false_and, decide_false, Bool.false_eq_true, if_false]
        ring
      · rw [if_neg (show ¬ decide (e.src = i ∧ e.tgt = j) = true by simpa using h1),
          if_neg (show ¬ decide (e.src = j ∧ e.tgt = i) = true by simpa using h2),
          if_neg (by rintro (h | h); exact h1 h; exact h2 h), zero_add]

theorem timeIn_add (a b c : K) (hab : a ≤ b) (hbc : b ≤ c) (e : Event Nat K) (he : e.start ≤ e.stop) :
    timeIn a b e + timeIn b c e = timeIn a c e := by
  unfold timeIn
  rcases le_total e.stop a with h1 | h1
  · rw [min_eq_left (h1.trans hab), min_eq_left (h1.trans (hab.trans hbc)),
      max_eq_right (he.trans h1), max_eq_right (he.trans (h1.trans hab)),
      max_eq_left (sub_nonpos.2 h1), max_eq_left (sub_nonpos.2 (h1.trans hab)), add_zero]
  rcases le_total c e.start with h2 | h2
  · have hb : b ≤ e.start := hbc.trans h2
    rw [min_eq_right (hb.trans he), min_eq_right (h2.trans he), max_eq_left (hab.trans hb), max_eq_left hb,
      max_eq_left (sub_nonpos.2 hb), max_eq_left (sub_nonpos.2 h2), add_zero]
  rcases le_total e.stop b with h3 | h3
  · rw [min_eq_left h3, min_eq_left (h3.trans hbc), max_eq_right (he.trans h3),
      max_eq_left (sub_nonpos.2 h3), add_zero]
  rcases le_total e.start b with h4 | h4
  · rw [min_eq_right h3, max_eq_right h4, max_eq_right (sub_nonneg.2 (max_le h4 hab)),
      max_eq_right (sub_nonneg.2 (le_min h3 hbc)),
      max_eq_right (sub_nonneg.2 (max_le (le_min he h2) (le_min h1 (hab.trans hbc))))]
    ring
  · rw [min_eq_right h3, max_eq_left (hab.trans h4), max_eq_left h4, max_eq_left (sub_nonpos.2 h4), zero_add]

/-- **C36** (additivity over consecutive windows). -/
theorem C36_additive (evs : List (Event Nat K)) (h : ∀ e ∈ evs, e.start ≤ e.stop) (a b c : K)
    (hab : a ≤ b) (hbc : b ≤ c) (i j : Nat) :
    staticAdjacency evs a b i j + staticAdjacency evs b c i j = staticAdjacency evs a c i j := by
  have key : ∀ i j, staticCoo evs a b i j + staticCoo evs b c i j = staticCoo evs a c i j := by
    intro i j
    rw [staticCoo_eq evs h a b hab, staticCoo_eq evs h b c hbc, staticCoo_eq evs h a c (hab.trans hbc),
      ← List.sum_map_add]
    congr 1
    apply List.map_congr_left
    intro e he
    exact timeIn_add a b c hab hbc e (h e (List.mem_of_mem_filter he))
  unfold staticAdjacency
  rw [← key i j, ← key j i]
  ring

/-- **C36** (default window): over a window that contains all events the entries are total
durations. -/
theorem C36_whole_window (evs : List (Event Nat K)) (h : ∀ e ∈ evs, e.start ≤ e.stop) (a b : K)
    (hab : a ≤ b) (ha : ∀ e ∈ evs, a ≤ e.start) (hb : ∀ e ∈ evs, e.stop ≤ b) (i j : Nat) (hij : i ≠ j) :
    staticAdjacency evs a b i j = (evs.map fun e =>
      if (e.src = i ∧ e.tgt = j) ∨ (e.src = j ∧ e.tgt = i) then e.stop - e.start else 0).sum := by
  rw [C36_contact_time evs h a b hab i j hij]
  congr 1
  apply List.map_congr_left
  intro e he
  have : timeIn a b e = e.stop - e.start := by
    unfold timeIn
    rw [min_eq_left (hb e he), max_eq_left (ha e he), max_eq_right (sub_nonneg.2 (h e he))]
  rw [this]

example : (∀ e ∈ exEvents, e.start ≤ e.stop) ∧ staticAdjacency exEvents 1 3 0 1 = 2 ∧
    (∀ e ∈ exEvents, 0 ≤ e.start) ∧ (∀ e ∈ exEvents, e.stop ≤ 4) :=
  ⟨by decide +kernel, by decide +kernel, by decide +kernel, by decide +kernel⟩

end Verif.TempNet
