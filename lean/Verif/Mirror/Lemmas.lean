import Verif.Mirror.Spec
import Verif.EndToEnd.Props

/-! # The walk on mirrored contacts -/

set_option linter.dupNamespace false
set_option linter.unusedSectionVars false

namespace Verif.Mirror

open Verif.TempNet Verif.EndToEnd Verif.FlowStability Verif.Trans Verif.Flow Verif.Louvain Verif.Partition

variable {L : Type} [LinearOrder L]

theorem good_mirror {evs : List (Event L ℝ)} (h : GoodContacts evs) (c : ℝ) : GoodContacts (evs.map (mirror c)) := by
  refine ⟨by simpa using h.nonempty, ?_, ?_, ?_⟩
  · intro e he
    obtain ⟨f, hf, rfl⟩ := List.mem_map.1 he
    have := h.lasting f hf
    show c - f.stop < c - f.start
    linarith
  · intro e he
    obtain ⟨f, hf, rfl⟩ := List.mem_map.1 he
    exact h.different f hf
  · rw [List.pairwise_map]
    refine h.separate.imp fun {e f} hef hp => ?_
    show c - e.start ≤ c - f.stop ∨ c - f.start ≤ c - e.stop
    rcases hef hp with h | h
    · right; linarith
    · left; linarith

theorem nodesOf_mirror {evs : List (Event L ℝ)} {nodes : List L} (h : NodesOf evs nodes) (c : ℝ) :
    NodesOf (evs.map (mirror c)) nodes := by
  refine ⟨h.1, fun l => (h.2 l).trans ?_⟩
  constructor
  · rintro ⟨e, he, h⟩
    exact ⟨_, List.mem_map_of_mem he, h⟩
  · rintro ⟨e, he, h⟩
    obtain ⟨f, hf, rfl⟩ := List.mem_map.1 he
    exact ⟨f, hf, h⟩

theorem timesOf_mirror {evs : List (Event L ℝ)} {times : List ℝ} (h : TimesOf evs times) (c : ℝ) :
    TimesOf (evs.map (mirror c)) (times.map (c - ·)).reverse := by
  refine ⟨?_, ?_⟩
  · rw [List.pairwise_reverse, List.pairwise_map]
    exact h.1.imp fun hab => by linarith
  · intro t
    rw [List.mem_reverse, List.mem_map]
    constructor
    · rintro ⟨u, hu, rfl⟩
      obtain ⟨e, he, h⟩ := (h.2 u).1 hu
      refine ⟨_, List.mem_map_of_mem he, ?_⟩
      rcases h with rfl | rfl
      · exact .inr rfl
      · exact .inl rfl
    · rintro ⟨e, he, ht⟩
      obtain ⟨f, hf, rfl⟩ := List.mem_map.1 he
      rcases ht with rfl | rfl
      · exact ⟨f.stop, (h.2 _).2 ⟨f, hf, .inr rfl⟩, rfl⟩
      · exact ⟨f.start, (h.2 _).2 ⟨f, hf, .inl rfl⟩, rfl⟩

theorem getD_mirror (times : List ℝ) (c : ℝ) {k : Nat} (hk : k < times.length) :
    ((times.map (c - ·)).reverse).getD k 0 = c - times.getD (times.length - 1 - k) 0 := by
  rw [List.getD_eq_getElem?_getD, List.getD_eq_getElem?_getD, List.getElem?_reverse (by simpa using hk), List.length_map,
    List.getElem?_map, List.getElem?_eq_getElem (by omega)]
  rfl

/-- No time lies between two successive times. -/
theorem between {times : List ℝ} (h : times.Pairwise (· < ·)) {m : Nat} (hm : m + 1 < times.length) {t : ℝ} (ht : t ∈ times) :
    (t < times.getD (m + 1) 0 ↔ t ≤ times.getD m 0) := by
  obtain ⟨i, hi, rfl⟩ := List.getElem_of_mem ht
  rw [List.getD_eq_getElem?_getD, List.getD_eq_getElem?_getD, List.getElem?_eq_getElem hm,
    List.getElem?_eq_getElem (show m < times.length by omega)]
  simp only [Option.getD_some]
  have key := List.pairwise_iff_getElem.1 h
  constructor
  · intro hlt
    rcases Nat.lt_or_ge m i with hmi | hmi
    · rcases Nat.lt_or_ge (m + 1) i with h2 | h2
      · exact absurd hlt (not_lt.2 (key (m + 1) i hm hi h2).le)
      · have : i = m + 1 := by omega
        subst this
        exact absurd hlt (lt_irrefl _)
    · rcases Nat.lt_or_ge i m with h2 | h2
      · exact (key i m hi (by omega) h2).le
      · have : i = m := by omega
        subst this
        exact le_rfl
  · intro hle
    exact lt_of_le_of_lt hle (key m (m + 1) (by omega) hm (by omega))

theorem inContact_mirror {evs : List (Event L ℝ)} {times : List ℝ} (ht : TimesOf evs times) (nodes : List L) (c : ℝ) {m : Nat}
    (hm : m + 1 < times.length) :
    InContact (evs.map (mirror c)) nodes (c - times.getD (m + 1) 0) = InContact evs nodes (times.getD m 0) := by
  funext i j
  have hb := fun t h => between ht.1 hm (t := t) h
  apply propext
  unfold InContact
  constructor
  · rintro ⟨e, he, h1, h2, h3⟩
    obtain ⟨f, hf, rfl⟩ := List.mem_map.1 he
    have a := hb f.start ((ht.2 _).2 ⟨f, hf, .inl rfl⟩)
    have b := hb f.stop ((ht.2 _).2 ⟨f, hf, .inr rfl⟩)
    simp only [mirror] at h1 h2
    refine ⟨f, hf, a.1 (by linarith), ?_, h3⟩
    by_contra hn
    have := b.2 (not_lt.1 hn)
    linarith
  · rintro ⟨f, hf, h1, h2, h3⟩
    have a := hb f.start ((ht.2 _).2 ⟨f, hf, .inl rfl⟩)
    have b := hb f.stop ((ht.2 _).2 ⟨f, hf, .inr rfl⟩)
    refine ⟨_, List.mem_map_of_mem hf, ?_, ?_, h3⟩
    · show c - f.stop ≤ c - times.getD (m + 1) 0
      by_contra hn
      have := b.1 (by linarith)
      linarith
    · show c - times.getD (m + 1) 0 < c - f.start
      have := a.2 h1
      linarith

theorem walkStep_mirror {evs : List (Event L ℝ)} {times : List ℝ} (ht : TimesOf evs times) (nodes : List L) (c scale : ℝ) {k : Nat}
    (hk : k + 1 < times.length) :
    walkStep (evs.map (mirror c)) nodes (times.map (c - ·)).reverse scale k =
      walkStep evs nodes times scale (times.length - 2 - k) := by
  unfold walkStep
  rw [getD_mirror times c hk, getD_mirror times c (by omega)]
  have e1 : times.length - 1 - (k + 1) = times.length - 2 - k := by omega
  have e2 : times.length - 1 - k = times.length - 2 - k + 1 := by omega
  rw [e1, e2, inContact_mirror ht nodes c (by omega)]
  congr 1
  funext a b
  ring

theorem walkSteps_mirror {evs : List (Event L ℝ)} {times : List ℝ} (ht : TimesOf evs times) (nodes : List L) (c scale : ℝ) :
    (List.range (times.length - 1)).map (walkStep (evs.map (mirror c)) nodes (times.map (c - ·)).reverse scale) =
      ((List.range (times.length - 1)).map (walkStep evs nodes times scale)).reverse := by
  apply List.ext_getElem (by simp)
  intro k h1 h2
  simp only [List.length_map, List.length_range] at h1
  simp only [List.getElem_map, List.getElem_range, List.getElem_reverse, List.length_map, List.length_range]
  rw [walkStep_mirror ht nodes c scale (by omega)]
  congr 1

theorem walkOver_mirror {evs : List (Event L ℝ)} {times : List ℝ} (ht : TimesOf evs times) (nodes : List L) (c scale : ℝ) (rev : Bool) :
    walkOver (evs.map (mirror c)) nodes (times.map (c - ·)).reverse scale rev = walkOver evs nodes times scale (!rev) := by
  unfold walkOver
  simp only [List.length_reverse, List.length_map, walkSteps_mirror ht]
  cases rev
  · simp
  · simp

theorem flowCov_mirror {evs : List (Event L ℝ)} {times : List ℝ} (ht : TimesOf evs times) (nodes : List L) (c scale : ℝ) (rev : Bool) :
    flowCov (evs.map (mirror c)) nodes (times.map (c - ·)).reverse scale rev = flowCov evs nodes times scale (!rev) := by
  unfold flowCov
  simp only [List.length_reverse, List.length_map, List.length_range, walkSteps_mirror ht]
  congr 1
  unfold flowSteps
  simp only [List.length_reverse, List.length_map, List.length_range]
  cases rev
  · simp only [Bool.not_false, if_true, Bool.false_eq_true, if_false]
    refine List.map_congr_left fun k hk => ?_
    have hk := List.mem_range.1 hk
    rw [getD_mirror times c (by omega), getD_mirror times c (by omega)]
    have e1 : times.length - 1 - (k + 1) = times.length - 1 - k - 1 := by omega
    rw [e1]
    congr 1
    ring
  · simp only [Bool.not_true, if_true, Bool.false_eq_true, if_false, List.reverse_reverse]
    refine List.map_congr_left fun k hk => ?_
    have hk := List.mem_range.1 hk
    rw [getD_mirror times c (by omega), getD_mirror times c (by omega)]
    have e1 : times.length - 1 - (times.length - 1 - k - 1) = k + 1 := by omega
    have e2 : times.length - 1 - (times.length - 1 - k) = k := by omega
    rw [e1, e2]
    congr 1
    ring

/-- Searches on matrices with the same entries find the same. -/
theorem searchOf_unique {L' : Type} [LinearOrder L'] {u : Sched × Params ℝ} {evs : List (Event L ℝ)} {evs' : List (Event L' ℝ)} {nodes : List L}
    {nodes' : List L'} {times times' : List ℝ} {scale scale' : ℝ} {rev rev' : Bool} (hn : nodes'.length = nodes.length)
    (hT : EqOn nodes.length (walkOver evs nodes times scale rev) (walkOver evs' nodes' times' scale' rev'))
    (hS : EqOn nodes.length (flowCov evs nodes times scale rev) (flowCov evs' nodes' times' scale' rev')) {p p' : Part}
    (h : SearchOf u evs nodes times scale rev p) (h' : SearchOf u evs' nodes' times' scale' rev' p') : p = p' := by
  obtain ⟨c, k, h1, h2⟩ := h
  obtain ⟨c', k', h3, h4⟩ := h'
  obtain ⟨c2, e1, e2⟩ := search_congr u.1 u.2 hS hT h1 h2
  rw [hn] at h3
  rw [h3] at e1
  cases e1
  rw [e2] at h4
  cases h4
  rfl

end Verif.Mirror
