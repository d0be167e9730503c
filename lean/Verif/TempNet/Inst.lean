import Verif.TempNet.Props

/-!
# Instantaneous events: property C57
-/

set_option linter.dupNamespace false
set_option linter.unusedSectionVars false
set_option linter.unusedSimpArgs false

namespace Verif.TempNet

variable {K : Type} [Field K] [LinearOrder K] [IsStrictOrderedRing K]

open Classical in
theorem instRow_spec {n : Nat} {s : LapState K} (h : Ok n s) (e : Event Nat K) (isStart : Bool)
    (hs : isStart = true → e.src < n ∧ e.tgt < n) (hne : e.src ≠ e.tgt) :
    Ok n (s.instRow e isStart) ∧ ∀ a b, (s.instRow e isStart).A a b =
      if isStart = true ∧ e.Pair a b then 1 else s.A a b := by
  cases isStart with
  | false => simpa [LapState.instRow] using h
  | true =>
    have hr := hs rfl
    unfold LapState.instRow
    simp only [if_true, true_and]
    split
    · rename_i h1
      have h0 : s.A e.src e.tgt = 0 := (h.val _ _).resolve_right h1
      have h2 := ok_setPair h e.src e.tgt hr.1 hr.2 hne 1 1 (.inr rfl) (by rw [h0, sub_zero])
      refine ⟨⟨h2.val, h2.symm, h2.diag, h2.supp, h2.deg, ?_, ?_⟩, fun a b => setPair_eq s.A e 1 a b⟩
      · intro i
        show (if i = e.tgt then 0 else if i = e.src then 0 else s.S i) =
          if addAt (addAt s.deg e.src 1) e.tgt 1 i = 0 then 1 else 0
        by_cases hi : i = e.tgt
        · have : addAt (addAt s.deg e.src 1) e.tgt 1 i ≠ 0 := by
            unfold addAt
            rw [if_pos hi, if_neg (by rw [hi]; exact hne.symm)]
            have := deg_nonneg h i
            positivity
          rw [if_pos hi, if_neg this]
        · by_cases hi2 : i = e.src
          · have : addAt (addAt s.deg e.src 1) e.tgt 1 i ≠ 0 := by
              unfold addAt
              rw [if_neg hi, if_pos hi2]
              have := deg_nonneg h i
              positivity
            rw [if_neg hi, if_pos hi2, if_neg this]
          · rw [if_neg hi, if_neg hi2]
            have := h2.loop i (by rintro (h3 | h3); exact hi2 h3; exact hi h3)
            exact this
      · intro i
        show (if i = e.tgt then 1 / addAt (addAt s.deg e.src 1) e.tgt 1 e.tgt
            else if i = e.src then 1 / addAt (addAt s.deg e.src 1) e.tgt 1 e.src else s.Dm1 i) =
          if addAt (addAt s.deg e.src 1) e.tgt 1 i = 0 then 1
            else 1 / addAt (addAt s.deg e.src 1) e.tgt 1 i
        by_cases hi : i = e.tgt
        · have : addAt (addAt s.deg e.src 1) e.tgt 1 i ≠ 0 := by
            unfold addAt
            rw [if_pos hi, if_neg (by rw [hi]; exact hne.symm)]
            have := deg_nonneg h i
            positivity
          rw [if_pos hi, if_neg this, hi]
        · by_cases hi2 : i = e.src
          · have : addAt (addAt s.deg e.src 1) e.tgt 1 i ≠ 0 := by
              unfold addAt
              rw [if_neg hi, if_pos hi2]
              have := deg_nonneg h i
              positivity
            rw [if_neg hi, if_pos hi2, if_neg this, hi2]
          · rw [if_neg hi, if_neg hi2]
            have := h2.inv i (by rintro (h3 | h3); exact hi2 h3; exact hi h3)
            exact this
    · rename_i h1
      rw [not_not] at h1
      refine ⟨h, fun a b => ?_⟩
      split
      · rename_i hp
        rcases hp with ⟨rfl, rfl⟩ | ⟨rfl, rfl⟩
        · exact h1
        · rw [h.symm]; exact h1
      · rfl

open Classical in
theorem instRows_spec {n : Nat} (rows : List (Event Nat K × Bool))
    (hr : ∀ r ∈ rows, r.1.src < n ∧ r.1.tgt < n) (hne : ∀ r ∈ rows, r.1.src ≠ r.1.tgt)
    (s : LapState K) (hs : Ok n s) :
    ∃ s', rows.foldlM (LapState.instRowChecked n) s = .ok s' ∧ Ok n s' ∧
      ∀ a b, s'.A a b = if ∃ r ∈ rows, r.2 = true ∧ r.1.Pair a b then 1 else s.A a b := by
  induction rows generalizing s with
  | nil => exact ⟨s, rfl, hs, by simp⟩
  | cons r rest ih =>
    have h0 := hr r List.mem_cons_self
    obtain ⟨h1, h2⟩ := instRow_spec hs r.1 r.2 (fun _ => h0) (hne r List.mem_cons_self)
    obtain ⟨s', h3, h4, h5⟩ := ih (fun x hx => hr x (List.mem_cons_of_mem _ hx))
      (fun x hx => hne x (List.mem_cons_of_mem _ hx)) _ h1
    refine ⟨s', ?_, h4, fun a b => ?_⟩
    · rw [List.foldlM_cons]
      have : LapState.instRowChecked n s r = .ok (s.instRow r.1 r.2) := by
        unfold LapState.instRowChecked; rw [if_pos (.inr h0)]
      rw [this]
      exact h3
    · rw [h5 a b, h2 a b]
      by_cases h6 : ∃ x ∈ rest, x.2 = true ∧ x.1.Pair a b
      · obtain ⟨x, hx, hx2⟩ := h6
        rw [if_pos ⟨x, hx, hx2⟩, if_pos ⟨x, List.mem_cons_of_mem _ hx, hx2⟩]
      · rw [if_neg h6]
        by_cases h7 : r.2 = true ∧ r.1.Pair a b
        · rw [if_pos h7, if_pos ⟨r, List.mem_cons_self, h7⟩]
        · rw [if_neg h7, if_neg]
          rintro ⟨x, hx, hx2⟩
          rcases List.mem_cons.1 hx with rfl | hx
          · exact h7 hx2
          · exact h6 ⟨x, hx, hx2⟩

theorem mem_rowsAt_start (evs : List (Event Nat K)) (sf : Nat → Bool) (t : K) (a b : Nat) :
    (∃ r ∈ rowsAt evs sf t, r.2 = true ∧ r.1.Pair a b) ↔ Starts evs t a b := by
  rw [rowsAt_eq]
  constructor
  · rintro ⟨r, hr, h1, h2⟩
    rw [List.mem_flatMap] at hr
    obtain ⟨p, hp, hr⟩ := hr
    have h4 : r ∈ (if p.1.start = t then [(p.1, true)] else []) ++
        (if p.1.stop = t then [(p.1, false)] else []) := by
      unfold rowsOf at hr
      dsimp only at hr
      split at hr
      · exact hr
      · rw [List.mem_append] at hr ⊢; exact hr.symm
    rw [List.mem_append] at h4
    rcases h4 with h4 | h4 <;> split at h4 <;> simp at h4
    · rename_i h5
      rw [h4] at h2
      exact ⟨p.1, mem_zipIdx_fst hp, h2, h5⟩
    · rw [h4] at h1; simp at h1
  · rintro ⟨e, he, hp, hst⟩
    rw [← zipIdx_fst evs, List.mem_map] at he
    obtain ⟨p, hpm, rfl⟩ := he
    refine ⟨(p.1, true), List.mem_flatMap.2 ⟨p, hpm, ?_⟩, rfl, hp⟩
    unfold rowsOf
    dsimp only
    rw [if_pos hst]
    split <;> simp

theorem instLoop_spec {n : Nat} {evs : List (Event Nat K)} (hr : InRange n evs) (hne : NoSelfLoops evs)
    (sf : Nat → Bool) (ts : List K) :
    ∃ states, instLoop n evs sf ts = .ok states ∧ states.length = ts.length ∧
      ∀ (i : Nat) (hi : i < states.length) (hi' : i < ts.length),
        Tracks n (Starts evs ts[i]) states[i] := by
  induction ts with
  | nil => exact ⟨[], rfl, rfl, by simp⟩
  | cons t ts ih =>
    obtain ⟨states, h1, h2, h3⟩ := ih
    obtain ⟨s', h4, h5, h6⟩ := instRows_spec (n := n) (rowsAt evs sf t) (rowsAt_inRange hr sf t)
      (fun r hr' => hne _ (mem_rowsAt evs sf t r hr')) LapState.init (ok_init n)
    refine ⟨s' :: states, ?_, by simp [h2], ?_⟩
    · simp only [instLoop]
      rw [h4]
      dsimp only
      rw [h1]
    · intro i hi hi'
      cases i with
      | zero =>
        refine ⟨h5, fun a b => ?_⟩
        simp only [List.getElem_cons_zero]
        rw [h6 a b]
        by_cases h7 : Starts evs t a b
        · rw [if_pos h7, if_pos ((mem_rowsAt_start evs sf t a b).2 h7)]
        · rw [if_neg h7, if_neg fun hc => h7 ((mem_rowsAt_start evs sf t a b).1 hc)]
          rfl
      | succ i => exact h3 i (by simpa using hi) (by simpa using hi')

/-- **C57**.  For instantaneous events without self-loops, repeated or not, there is one
Laplacian per time of the window, and it is the random-walk Laplacian of the contacts at that
time. -/
theorem C57_instantaneous_laplacians {n : Nat} {evs : List (Event Nat K)} (hr : InRange n evs)
    (hnl : NoSelfLoops evs) (hne : evs ≠ []) (sf : Nat → Bool) (tStart tStop : Option K) :
    ∃ L, computeInstLaplacians n evs sf tStart tStop = .ok L ∧
      Resolves (timesOf evs) L.kStart 0 tStart ∧
      Resolves (timesOf evs) L.kStop ((timesOf evs).length - 1) tStop ∧
      L.laplacians.length = L.kStop - L.kStart ∧
      ∀ (i : Nat) (hi : i < L.laplacians.length) (hk : L.kStart + i < (timesOf evs).length) (a b : Nat),
        L.laplacians[i] a b = walkLaplacian n (Starts evs (timesOf evs)[L.kStart + i]) a b := by
  have hsorted : (timesOf evs).Pairwise (· < ·) := uniqueSorted_lt _
  have hne' : timesOf evs ≠ [] := by
    obtain ⟨e, he⟩ := List.exists_mem_of_ne_nil _ hne
    exact List.ne_nil_of_mem (start_mem_times he)
  obtain ⟨k, m, hk, hm, hw, hk2, hm2⟩ := window_spec _ hsorted hne' tStart tStop
  obtain ⟨states, h1, h2, h3⟩ := instLoop_spec hr hnl sf (((timesOf evs).take m).drop k)
  refine ⟨⟨(timesOf evs)[k], k, (timesOf evs)[m], m, states.map LapState.laplacian,
    states.map LapState.A⟩, ?_, hk2, hm2, ?_, ?_⟩
  · unfold computeInstLaplacians
    dsimp only
    rw [hw]
    dsimp only
    rw [filter_window _ hsorted k m hk hm, h1]
  · simp only [List.length_map, h2, List.length_drop, List.length_take]
    omega
  · intro i hi hki a b
    have hi' : i < states.length := by simpa using hi
    have hi'' : i < (((timesOf evs).take m).drop k).length := by omega
    have h4 := h3 i hi' hi''
    simp only [List.getElem_map]
    have h5 : (((timesOf evs).take m).drop k)[i] = (timesOf evs)[k + i] := by simp
    rw [h5] at h4
    exact laplacian_of_tracks h4 a b

theorem nextTime_spec (l : List K) (hs : l.Pairwise (· < ·)) (k : Nat) (hk : k < l.length) :
    nextTime l l[k] = if h : k + 1 < l.length then l[k + 1] else l[k] + 1 := by
  induction l generalizing k with
  | nil => simp at hk
  | cons x l ih =>
    cases k with
    | zero =>
      unfold nextTime
      simp only [List.getElem_cons_zero]
      rw [List.dropWhile_cons, if_neg (by simp)]
      cases l with
      | nil => simp
      | cons y l => simp
    | succ k =>
      have hk' : k < l.length := by simpa using hk
      have h1 := ih (List.pairwise_cons.1 hs).2 k hk'
      have h2 : x ≠ l[k] := ((List.pairwise_cons.1 hs).1 _ (List.getElem_mem hk')).ne
      simp only [List.getElem_cons_succ, List.length_cons, Nat.add_lt_add_iff_right]
      rw [← h1]
      unfold nextTime
      rw [List.dropWhile_cons, if_pos (by simpa using h2)]

/-- **C57** (durations): the contacts of a time last until the next starting time, the last
ones for one unit of time; so they are lasting and those of different times do not overlap. -/
theorem C57_ending_times {L : Type} (evs : List (L × L × K)) :
    ∀ e ∈ instEvents evs, e.start < e.stop ∧
      (∀ f ∈ instEvents evs, e.start < f.start → e.stop ≤ f.start) ∧
      ((∃ f ∈ instEvents evs, e.stop = f.start) ∨
        (e.stop = e.start + 1 ∧ ∀ f ∈ instEvents evs, f.start ≤ e.start)) := by
  intro e he
  unfold instEvents at he
  obtain ⟨x, hx, rfl⟩ := List.mem_map.1 he
  set u := uniqueSorted (evs.map fun e => e.2.2) with hu
  have hs : u.Pairwise (· < ·) := uniqueSorted_lt _
  have hstart : ∀ t, t ∈ u ↔ ∃ f ∈ instEvents evs, f.start = t := by
    intro t
    rw [hu, mem_uniqueSorted]
    unfold instEvents
    simp only [List.mem_map]
    constructor
    · rintro ⟨y, hy, rfl⟩; exact ⟨_, ⟨y, hy, rfl⟩, rfl⟩
    · rintro ⟨_, ⟨y, hy, rfl⟩, rfl⟩; exact ⟨y, hy, rfl⟩
  have hxu : x.2.2 ∈ u := by rw [hu, mem_uniqueSorted]; exact List.mem_map_of_mem hx
  obtain ⟨k, hk, hxk⟩ := List.getElem_of_mem hxu
  dsimp only
  have hn := nextTime_spec u hs k hk
  rw [hxk] at hn
  by_cases h1 : k + 1 < u.length
  · rw [dif_pos h1] at hn
    obtain ⟨g1, g2⟩ := gap_of_sorted hs k h1
    rw [hn, ← hxk]
    refine ⟨g1, ?_, .inl ?_⟩
    · intro f hf hlt
      rcases g2 f.start ((hstart _).2 ⟨f, hf, rfl⟩) with h | h
      · exact absurd hlt (not_lt.2 h)
      · exact h
    · obtain ⟨f, hf, hf2⟩ := (hstart u[k + 1]).1 (List.getElem_mem h1)
      exact ⟨f, hf, hf2.symm⟩
  · rw [dif_neg h1] at hn
    have hmax : ∀ f ∈ instEvents evs, f.start ≤ u[k] := by
      intro f hf
      obtain ⟨i, hi, hif⟩ := List.getElem_of_mem ((hstart _).2 ⟨f, hf, rfl⟩)
      rw [← hif]
      exact getElem_le_of_pairwise hs hi hk (by omega)
    rw [hn, ← hxk]
    refine ⟨by linarith, ?_, .inr ⟨rfl, hmax⟩⟩
    intro f hf hlt
    exact absurd hlt (not_lt.2 (hmax f hf))

/-- Two contacts at the same time, one of them given twice in opposite directions. -/
def exInst : List (Nat × Nat × ℚ) := [(0, 1, 5), (1, 0, 5), (1, 2, 7)]

example : instEvents exInst = [⟨0, 1, 5, 7⟩, ⟨1, 0, 5, 7⟩, ⟨1, 2, 7, 8⟩] ∧
    InRange 3 (instEvents exInst) ∧ NoSelfLoops (instEvents exInst) ∧ instEvents exInst ≠ [] :=
  ⟨by decide +kernel, by unfold InRange; decide +kernel, by unfold NoSelfLoops; decide +kernel,
    by decide +kernel⟩

/-- Laplacians of instantaneous events have vanishing row sums too. -/
theorem C57_row_sums {n : Nat} {evs : List (Event Nat K)} (hr : InRange n evs)
    (hnl : NoSelfLoops evs) (sf : Nat → Bool) (tStart tStop : Option K) (L : Laps K)
    (hL : computeInstLaplacians n evs sf tStart tStop = .ok L) :
    ∀ M ∈ L.laplacians, (∀ i < n, ∑ j ∈ Finset.range n, M i j = 0) ∧
        (∀ i j, i ≠ j → M i j ≤ 0) ∧ ∀ i, 0 ≤ M i i ∧ M i i ≤ 1 := by
  unfold computeInstLaplacians at hL
  dsimp only at hL
  split at hL
  · cases hL
  · rename_i a b _
    obtain ⟨states, h1, h2, h3⟩ := instLoop_spec hr hnl sf
      ((timesOf evs).filter fun t => a.1 ≤ t ∧ t < b.1)
    rw [h1] at hL
    cases hL
    intro M hM
    obtain ⟨x, hx, rfl⟩ := List.mem_map.1 hM
    obtain ⟨i, hi, rfl⟩ := List.getElem_of_mem hx
    have := (h3 i hi (by omega)).1
    exact ⟨fun i hi => laplacian_rows this i hi, fun i j hij => laplacian_offdiag this i j hij,
      fun i => laplacian_diag this i⟩

end Verif.TempNet
