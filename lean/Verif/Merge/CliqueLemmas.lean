import Verif.Merge.Lemmas

/-!
# Merging when overlaps are transitive
-/

set_option linter.dupNamespace false
set_option linter.unusedSectionVars false
set_option linter.unusedSimpArgs false

namespace Verif.Merge

open Verif.TempNet

variable {K : Type} [Field K] [LinearOrder K] [IsStrictOrderedRing K]

/-- The run visits blocks of events that overlap their first event; the last event of a block
ends last and before the next block.  `cur` is the end last given to `ev1`, `mx` the largest
end seen in the block. -/
def GoodRun : Snap K → K → K → List (Snap K) → Prop
  | _, cur, mx, [] => mx ≤ cur
  | ev1, cur, mx, ev2 :: rest =>
    if ev2.start < ev1.stop then GoodRun ev1 ev2.stop (max mx ev2.stop) rest
    else mx ≤ cur ∧ cur ≤ ev2.start ∧ GoodRun ev2 ev2.stop ev2.stop rest

theorem good_end (rest : List (Snap K)) : ∀ (ev1 : Snap K) (cur mx : K) (st : MState K),
    GoodRun ev1 cur mx rest → ((ev1 :: rest).map Snap.id).Nodup → st.ends ev1.id = cur →
    mx ≤ (mergeRun ev1 rest st).ends ev1.id := by
  induction rest with
  | nil => intro ev1 cur mx st h _ hc; unfold GoodRun at h; unfold mergeRun; rw [hc]; exact h
  | cons ev2 rest ih =>
    intro ev1 cur mx st h hn hc
    unfold GoodRun at h
    unfold mergeRun
    simp only [List.map_cons, List.nodup_cons, List.mem_cons, not_or] at hn
    split at h
    · rename_i hlt
      rw [if_pos hlt]
      refine (le_max_left mx ev2.stop).trans (ih ev1 ev2.stop _ _ h ?_ (by simp))
      simp only [List.map_cons, List.nodup_cons]
      exact ⟨hn.1.2, hn.2.2⟩
    · rename_i hlt
      rw [if_neg hlt, run_ends_frame rest ev2 st ev1.id hn.1.1 hn.1.2, hc]
      exact h.1

/-- A second run over the events of the pair, with the new ends, changes nothing. -/
theorem good_again (rest : List (Snap K)) : ∀ (ev1 : Snap K) (cur mx : K) (st st' : MState K),
    GoodRun ev1 cur mx rest → ((ev1 :: rest).map Snap.id).Nodup → ev1.stop ≤ mx →
    st.ends ev1.id = cur → (∀ s ∈ rest, st.ends s.id = s.stop) →
    st'.keep = (mergeRun ev1 rest st).keep →
    (∀ i, i ≠ ev1.id → st'.ends i = (mergeRun ev1 rest st).ends i) →
    (st'.ends ev1.id = (mergeRun ev1 rest st).ends ev1.id ∨ st'.ends ev1.id = cur) →
    mergeRun { ev1 with stop := (mergeRun ev1 rest st).ends ev1.id }
      (rest.map fun s => { s with stop := (mergeRun ev1 rest st).ends s.id }) st' =
      mergeRun ev1 rest st := by
  induction rest with
  | nil =>
    intro ev1 cur mx st st' h _ _ hc _ hk he he'
    simp only [List.map_nil, mergeRun] at *
    obtain ⟨e, k⟩ := st
    obtain ⟨e', k'⟩ := st'
    simp only [MState.mk.injEq] at *
    refine ⟨?_, hk⟩
    funext i
    by_cases hi : i = ev1.id
    · subst hi; rcases he' with h' | h'
      · exact h'
      · rw [h', hc]
    · exact he i hi
  | cons ev2 rest ih =>
    intro ev1 cur mx st st' h hn hmx hc hs hk he he'
    have hg := good_end (ev2 :: rest) ev1 cur mx st h hn hc
    have hn' := hn
    simp only [List.map_cons, List.nodup_cons, List.mem_cons, not_or] at hn'
    unfold GoodRun at h
    by_cases hlt : ev2.start < ev1.stop
    · rw [if_pos hlt] at h
      have hF : mergeRun ev1 (ev2 :: rest) st = mergeRun ev1 rest
        { ends := fun i => if i = ev1.id then ev2.stop else st.ends i
          keep := fun i => if i = ev2.id then false else st.keep i } := by
        rw [mergeRun, if_pos hlt]
      have hn2 : ((ev1 :: rest).map Snap.id).Nodup := by
        simp only [List.map_cons, List.nodup_cons]; exact ⟨hn'.1.2, hn'.2.2⟩
      have h2 : (mergeRun ev1 (ev2 :: rest) st).ends ev2.id = ev2.stop := by
        rw [hF, run_ends_frame rest ev1 _ ev2.id (Ne.symm hn'.1.1) hn'.2.1]
        simp only [if_neg (Ne.symm hn'.1.1)]
        exact hs ev2 (by simp)
      have h3 : (mergeRun ev1 (ev2 :: rest) st).keep ev2.id = false := by
        rw [hF, run_keep_frame rest ev1 _ ev2.id hn'.2.1]; simp
      rw [List.map_cons, mergeRun, if_pos (show ev2.start < _ from lt_of_lt_of_le hlt (hmx.trans hg))]
      simp only [h2]
      rw [hF] at h3 hk he ⊢
      apply ih ev1 ev2.stop (max mx ev2.stop) _ _ h hn2 (hmx.trans (le_max_left _ _)) (by simp)
      · intro s hs'
        have : s.id ≠ ev1.id := by
          rintro heq; exact hn'.1.2 (heq ▸ List.mem_map_of_mem hs')
        simp only [if_neg this]
        exact hs s (by simp [hs'])
      · funext i
        simp only
        by_cases hi : i = ev2.id
        · subst hi; rw [if_pos rfl, h3]
        · rw [if_neg hi, hk]
      · intro i hi
        simp only [if_neg hi]
        exact he i hi
      · right; simp
    · rw [if_neg hlt] at h
      have hF : mergeRun ev1 (ev2 :: rest) st = mergeRun ev2 rest st := by
        rw [mergeRun, if_neg hlt]
      have h1 : (mergeRun ev1 (ev2 :: rest) st).ends ev1.id = cur := by
        rw [hF, run_ends_frame rest ev2 st ev1.id hn'.1.1 hn'.1.2, hc]
      rw [List.map_cons, mergeRun, if_neg (show ¬ ev2.start < _ by rw [h1]; exact not_lt.2 h.2.1)]
      have he2 : ∀ i, st'.ends i = (mergeRun ev1 (ev2 :: rest) st).ends i := by
        intro i
        by_cases hi : i = ev1.id
        · subst hi
          rcases he' with h' | h'
          · exact h'
          · rw [h', h1]
        · exact he i hi
      rw [hF] at he2 hk ⊢
      refine ih ev2 ev2.stop ev2.stop st st' h.2.2 hn.of_cons le_rfl (hs ev2 (by simp))
        (fun s hs' => hs s (by simp [hs'])) hk (fun i _ => he2 i) (Or.inl (he2 _))

/-- The kept events of a good run follow each other without overlap. -/
theorem good_separate (rest : List (Snap K)) : ∀ (ev1 : Snap K) (cur mx : K) (st : MState K),
    GoodRun ev1 cur mx rest → ((ev1 :: rest).map Snap.id).Nodup → st.ends ev1.id = cur →
    (∀ s ∈ rest, st.ends s.id = s.stop) →
    ((ev1 :: rest).Pairwise fun a b => a.start ≤ b.start) →
    ((ev1 :: rest).filter fun s => (mergeRun ev1 rest st).keep s.id).Pairwise
      fun a b => (mergeRun ev1 rest st).ends a.id ≤ b.start := by
  induction rest with
  | nil =>
    intro ev1 cur mx st _ _ _ _ _
    exact (List.pairwise_singleton _ ev1).sublist List.filter_sublist
  | cons ev2 rest ih =>
    intro ev1 cur mx st h hn hc hs hp
    have hn' := hn
    simp only [List.map_cons, List.nodup_cons, List.mem_cons, not_or] at hn'
    unfold GoodRun at h
    have hp' := hp
    rw [List.pairwise_cons, List.pairwise_cons] at hp'
    by_cases hlt : ev2.start < ev1.stop
    · rw [if_pos hlt] at h
      have hF : mergeRun ev1 (ev2 :: rest) st = mergeRun ev1 rest
        { ends := fun i => if i = ev1.id then ev2.stop else st.ends i
          keep := fun i => if i = ev2.id then false else st.keep i } := by
        rw [mergeRun, if_pos hlt]
      have hn2 : ((ev1 :: rest).map Snap.id).Nodup := by
        simp only [List.map_cons, List.nodup_cons]; exact ⟨hn'.1.2, hn'.2.2⟩
      have h3 : (mergeRun ev1 (ev2 :: rest) st).keep ev2.id = false := by
        rw [hF, run_keep_frame rest ev1 _ ev2.id hn'.2.1]; simp
      have hfilter : ((ev1 :: ev2 :: rest).filter fun s => (mergeRun ev1 (ev2 :: rest) st).keep s.id) =
          ((ev1 :: rest).filter fun s => (mergeRun ev1 (ev2 :: rest) st).keep s.id) := by
        simp only [List.filter_cons, h3]; rfl
      rw [hfilter, hF]
      apply ih ev1 ev2.stop (max mx ev2.stop) _ h hn2 (by simp)
      · intro s hs'
        have : s.id ≠ ev1.id := by
          rintro heq; exact hn'.1.2 (heq ▸ List.mem_map_of_mem hs')
        simp only [if_neg this]
        exact hs s (by simp [hs'])
      · rw [List.pairwise_cons]
        exact ⟨fun s h' => hp'.1 s (by simp [h']), hp'.2.2⟩
    · rw [if_neg hlt] at h
      have hF : mergeRun ev1 (ev2 :: rest) st = mergeRun ev2 rest st := by
        rw [mergeRun, if_neg hlt]
      have h1 : (mergeRun ev1 (ev2 :: rest) st).ends ev1.id = cur := by
        rw [hF, run_ends_frame rest ev2 st ev1.id hn'.1.1 hn'.1.2, hc]
      have hih := ih ev2 ev2.stop ev2.stop st h.2.2 hn.of_cons (hs ev2 (by simp))
        (fun s hs' => hs s (by simp [hs'])) hp.of_cons
      rw [← hF] at hih
      rw [List.filter_cons]
      split
      · rw [List.pairwise_cons]
        refine ⟨?_, hih⟩
        intro s hs'
        have hs2 := List.mem_of_mem_filter hs'
        rw [h1]
        refine h.2.1.trans ?_
        rcases List.mem_cons.1 hs2 with rfl | hs2
        · exact le_rfl
        · exact hp'.2.1 s hs2
      · exact hih

/-- No time is lost in a good run: the time from the start of `ev1` to `mx` and the times of
the other events are covered by kept events. -/
theorem good_covers (rest : List (Snap K)) : ∀ (ev1 : Snap K) (cur mx : K) (st : MState K),
    GoodRun ev1 cur mx rest → ((ev1 :: rest).map Snap.id).Nodup → st.ends ev1.id = cur →
    (∀ s ∈ rest, st.ends s.id = s.stop) → (∀ s ∈ ev1 :: rest, st.keep s.id = true) →
    ((ev1 :: rest).Pairwise fun a b => a.start ≤ b.start) →
    ∀ t, ((ev1.start ≤ t ∧ t < mx) ∨ ∃ s ∈ rest, s.start ≤ t ∧ t < s.stop) →
    ∃ s ∈ ev1 :: rest, (mergeRun ev1 rest st).keep s.id = true ∧ s.start ≤ t ∧
      t < (mergeRun ev1 rest st).ends s.id := by
  induction rest with
  | nil =>
    intro ev1 cur mx st h hn hc hs hk hp t ht
    have := good_end [] ev1 cur mx st h hn hc
    rcases ht with ht | ⟨s, hs', _⟩
    · exact ⟨ev1, by simp, hk ev1 (by simp), ht.1, lt_of_lt_of_le ht.2 this⟩
    · cases hs'
  | cons ev2 rest ih =>
    intro ev1 cur mx st h hn hc hs hk hp t ht
    have hn' := hn
    simp only [List.map_cons, List.nodup_cons, List.mem_cons, not_or] at hn'
    have hp' := hp
    rw [List.pairwise_cons, List.pairwise_cons] at hp'
    unfold GoodRun at h
    by_cases hlt : ev2.start < ev1.stop
    · rw [if_pos hlt] at h
      have hF : mergeRun ev1 (ev2 :: rest) st = mergeRun ev1 rest
        { ends := fun i => if i = ev1.id then ev2.stop else st.ends i
          keep := fun i => if i = ev2.id then false else st.keep i } := by
        rw [mergeRun, if_pos hlt]
      have hn2 : ((ev1 :: rest).map Snap.id).Nodup := by
        simp only [List.map_cons, List.nodup_cons]; exact ⟨hn'.1.2, hn'.2.2⟩
      rw [hF]
      have hne : ∀ s ∈ rest, s.id ≠ ev1.id ∧ s.id ≠ ev2.id := by
        intro s hs'
        exact ⟨fun heq => hn'.1.2 (heq ▸ List.mem_map_of_mem hs'),
          fun heq => hn'.2.1 (heq ▸ List.mem_map_of_mem hs')⟩
      obtain ⟨s, a1, a2⟩ := ih ev1 ev2.stop (max mx ev2.stop)
        { ends := fun i => if i = ev1.id then ev2.stop else st.ends i
          keep := fun i => if i = ev2.id then false else st.keep i } h hn2 (by simp)
        (by
          intro s hs'
          simp only [if_neg (hne s hs').1]
          exact hs s (by simp [hs']))
        (by
          intro s hs'
          rcases List.mem_cons.1 hs' with rfl | hs'
          · simp only [if_neg hn'.1.1]; exact hk _ (by simp)
          · simp only [if_neg (hne s hs').2]; exact hk _ (by simp [hs']))
        (by
          rw [List.pairwise_cons]
          exact ⟨fun s h' => hp'.1 s (by simp [h']), hp'.2.2⟩) t
        (by
          rcases ht with ht | ⟨s, hs', ht⟩
          · exact Or.inl ⟨ht.1, lt_of_lt_of_le ht.2 (le_max_left _ _)⟩
          · rcases List.mem_cons.1 hs' with rfl | hs'
            · exact Or.inl ⟨(hp'.1 _ (by simp)).trans ht.1, lt_of_lt_of_le ht.2 (le_max_right _ _)⟩
            · exact Or.inr ⟨s, hs', ht⟩)
      refine ⟨s, ?_, a2⟩
      rcases List.mem_cons.1 a1 with rfl | a1
      · simp
      · simp [a1]
    · rw [if_neg hlt] at h
      have hF : mergeRun ev1 (ev2 :: rest) st = mergeRun ev2 rest st := by
        rw [mergeRun, if_neg hlt]
      rw [hF]
      rcases ht with ht | ht
      · refine ⟨ev1, by simp, ?_, ht.1, ?_⟩
        · rw [run_keep_frame rest ev2 st ev1.id hn'.1.2]; exact hk _ (by simp)
        · rw [run_ends_frame rest ev2 st ev1.id hn'.1.1 hn'.1.2, hc]
          exact lt_of_lt_of_le ht.2 h.1
      · obtain ⟨s, a1, a2⟩ := ih ev2 ev2.stop ev2.stop st h.2.2 hn.of_cons (hs ev2 (by simp))
          (fun s hs' => hs s (by simp [hs'])) (fun s hs' => hk s (by simp [hs'])) hp.of_cons t
          (by
            obtain ⟨s, hs', ht⟩ := ht
            rcases List.mem_cons.1 hs' with rfl | hs'
            · exact Or.inl ht
            · exact Or.inr ⟨s, hs', ht⟩)
        exact ⟨s, by simp [a1], a2⟩

/-- Runs over lists with increasing starts and ends and transitive overlaps are good. -/
theorem good_of_transitive (rest : List (Snap K)) : ∀ (ev1 last : Snap K),
    ((last :: rest).Pairwise fun a b => a.start < b.start ∧ a.stop ≤ b.stop) →
    (last = ev1 ∨ (ev1.start < last.start ∧ last.start < ev1.stop ∧ ev1.stop ≤ last.stop)) →
    (∀ a ∈ ev1 :: last :: rest, ∀ b ∈ ev1 :: last :: rest, ∀ c ∈ ev1 :: last :: rest,
      a.start < b.start → b.start < c.start → b.start < a.stop → c.start < b.stop → c.start < a.stop) →
    GoodRun ev1 last.stop last.stop rest := by
  induction rest with
  | nil => intro ev1 last _ _ _; unfold GoodRun; exact le_rfl
  | cons ev2 rest ih =>
    intro ev1 last hp hl ht
    have hp' := hp
    rw [List.pairwise_cons, List.pairwise_cons] at hp'
    have h0 := hp'.1 ev2 (by simp)
    unfold GoodRun
    split
    · rename_i hlt
      rw [max_eq_right h0.2]
      apply ih ev1 ev2 hp.of_cons
      · right
        rcases hl with rfl | hl
        · exact ⟨h0.1, hlt, h0.2⟩
        · exact ⟨hl.1.trans h0.1, hlt, hl.2.2.trans h0.2⟩
      · intro a ha b hb c hc
        have key : ∀ x, x ∈ ev1 :: ev2 :: rest → x ∈ ev1 :: last :: ev2 :: rest := by
          intro x hx; simp only [List.mem_cons] at hx ⊢; tauto
        exact ht a (key a ha) b (key b hb) c (key c hc)
    · rename_i hlt
      refine ⟨le_rfl, ?_, ?_⟩
      · rcases hl with rfl | hl
        · exact not_lt.1 hlt
        · by_contra hcon
          exact hlt (ht ev1 (by simp) last (by simp) ev2 (by simp) hl.1 h0.1 hl.2.1 (not_le.1 hcon))
      · apply ih ev2 ev2 hp.of_cons (Or.inl rfl)
        intro a ha b hb c hc
        have key : ∀ x, x ∈ ev2 :: ev2 :: rest → x ∈ ev1 :: last :: ev2 :: rest := by
          intro x hx; simp only [List.mem_cons] at hx ⊢; tauto
        exact ht a (key a ha) b (key b hb) c (key c hc)

/-! ### From one pair to the pass -/

/-- The indices of the events of a pair. -/
def PairIdx (evs : List (Event Nat K)) (n1 n2 i : Nat) : Prop := ∃ e, evs[i]? = some e ∧ e.Pair n1 n2

/-- Two states agree on the events of a pair. -/
def Agree (evs : List (Event Nat K)) (n1 n2 : Nat) (s s' : MState K) : Prop :=
  ∀ i, PairIdx evs n1 n2 i → s.ends i = s'.ends i ∧ s.keep i = s'.keep i

theorem pairIdx_of_mem {evs : List (Event Nat K)} {st : MState K} {n1 n2 : Nat} {s : Snap K}
    (h : s ∈ pairSnaps evs st n1 n2) : PairIdx evs n1 n2 s.id := by
  obtain ⟨e, h1, h2, _⟩ := mem_pairSnaps.1 h
  exact ⟨e, h1, h2⟩

theorem run_local (rest : List (Snap K)) : ∀ (ev1 : Snap K) (s s' : MState K) (i : Nat),
    s.ends i = s'.ends i → s.keep i = s'.keep i →
    (mergeRun ev1 rest s).ends i = (mergeRun ev1 rest s').ends i ∧
    (mergeRun ev1 rest s).keep i = (mergeRun ev1 rest s').keep i := by
  induction rest with
  | nil => intro ev1 s s' i h1 h2; exact ⟨h1, h2⟩
  | cons ev2 rest ih =>
    intro ev1 s s' i h1 h2
    unfold mergeRun
    split
    · apply ih <;> simp [h1, h2]
    · exact ih _ _ _ _ h1 h2

theorem pairSnaps_agree {evs : List (Event Nat K)} {n1 n2 : Nat} {s s' : MState K}
    (h : Agree evs n1 n2 s s') : pairSnaps evs s n1 n2 = pairSnaps evs s' n1 n2 := by
  unfold pairSnaps
  congr 1
  apply List.map_congr_left
  rintro ⟨e, i⟩ hp
  simp only [List.mem_filter, mem_zip, ofPair_iff] at hp
  rw [(h i ⟨e, hp.1, hp.2⟩).1]

theorem mergePair_agree {evs : List (Event Nat K)} {n1 n2 : Nat} {s s' : MState K}
    (h : Agree evs n1 n2 s s') : Agree evs n1 n2 (mergePair evs s n1 n2) (mergePair evs s' n1 n2) := by
  intro i hi
  unfold mergePair
  rw [pairSnaps_agree h]
  split
  · exact h i hi
  · exact run_local _ _ _ _ _ (h i hi).1 (h i hi).2

theorem mergePair_frame (evs : List (Event Nat K)) (n1 n2 : Nat) (s : MState K) (i : Nat)
    (h : ¬ PairIdx evs n1 n2 i) :
    (mergePair evs s n1 n2).ends i = s.ends i ∧ (mergePair evs s n1 n2).keep i = s.keep i := by
  have hm := fun x hx => @pairIdx_of_mem K _ _ _ evs s n1 n2 x hx
  unfold mergePair
  cases hl : pairSnaps evs s n1 n2 with
  | nil => exact ⟨rfl, rfl⟩
  | cons ev1 rest =>
    rw [hl] at hm
    have h1 : i ≠ ev1.id := by rintro rfl; exact h (hm ev1 (by simp))
    have h2 : i ∉ rest.map Snap.id := by
      intro hc
      obtain ⟨x, hx, rfl⟩ := List.mem_map.1 hc
      exact h (hm x (by simp [hx]))
    exact ⟨run_ends_frame _ _ _ _ h1 h2, run_keep_frame _ _ _ _ h2⟩

theorem mergePair_symm (evs : List (Event Nat K)) (s : MState K) (n1 n2 : Nat) :
    mergePair evs s n1 n2 = mergePair evs s n2 n1 := by
  unfold mergePair; rw [pairSnaps_symm]

theorem pairIdx_same {evs : List (Event Nat K)} {n1 n2 m1 m2 i : Nat} (h : PairIdx evs n1 n2 i)
    (h' : PairIdx evs m1 m2 i) : (m1 = n1 ∧ m2 = n2) ∨ (m1 = n2 ∧ m2 = n1) := by
  obtain ⟨e, h1, h2⟩ := h
  obtain ⟨f, h3, h4⟩ := h'
  rw [h1] at h3
  cases h3
  unfold Event.Pair at h2 h4
  omega

/-- The tables for which merging is exact. -/
structure Clique (evs : List (Event Nat K)) : Prop where
  lasting : Lasting evs
  distinct : DistinctStarts evs
  noCont : NoContainment evs
  trans : OverlapsTransitive evs

theorem distinct_getElem {evs : List (Event Nat K)} (h : DistinctStarts evs) {i j : Nat}
    {e f : Event Nat K} (hi : evs[i]? = some e) (hj : evs[j]? = some f) (hij : i ≠ j)
    (hp : e.Pair f.src f.tgt) : e.start ≠ f.start := by
  obtain ⟨hi', rfl⟩ := List.getElem?_eq_some_iff.1 hi
  obtain ⟨hj', rfl⟩ := List.getElem?_eq_some_iff.1 hj
  unfold DistinctStarts at h
  rw [List.pairwise_iff_getElem] at h
  rcases Nat.lt_or_gt_of_ne hij with hlt | hlt
  · exact h i j hi' hj' hlt hp
  · exact (h j i hj' hi' hlt (by
      unfold Event.Pair at hp ⊢; rcases hp with ⟨a, b⟩ | ⟨a, b⟩ <;> simp [a, b])).symm

theorem pairSnaps_strict {evs : List (Event Nat K)} (h : DistinctStarts evs) (st : MState K) (n1 n2 : Nat) :
    (pairSnaps evs st n1 n2).Pairwise fun a b => a.start < b.start := by
  have h1 := pairSnaps_sorted evs st n1 n2
  have h2 := pairSnaps_nodup evs st n1 n2
  rw [List.nodup_iff_pairwise_ne, List.pairwise_map] at h2
  refine List.Pairwise.imp_of_mem ?_ (h1.and h2)
  intro a b ha hb hab
  obtain ⟨e, a1, a2, a3, _⟩ := mem_pairSnaps.1 ha
  obtain ⟨f, b1, b2, b3, _⟩ := mem_pairSnaps.1 hb
  refine lt_of_le_of_ne hab.1 ?_
  rw [a3, b3]
  exact distinct_getElem h a1 b1 hab.2 (pair_of a2 b2)

/-- With distinct starts the order of the events of a pair does not depend on the ends. -/
theorem pairSnaps_update {evs : List (Event Nat K)} (h : DistinctStarts evs) (st st' : MState K)
    (n1 n2 : Nat) : pairSnaps evs st' n1 n2 =
      (pairSnaps evs st n1 n2).map fun s => { s with stop := st'.ends s.id } := by
  have hp : (pairSnaps evs st' n1 n2).Perm
      ((pairSnaps evs st n1 n2).map fun s => { s with stop := st'.ends s.id }) := by
    refine (List.perm_insertionSort Snap.le _).trans ?_
    refine List.Perm.trans ?_ ((List.perm_insertionSort Snap.le _).map _).symm
    rw [List.map_map]
    exact List.Perm.of_eq rfl
  refine List.Perm.eq_of_pairwise (le := fun a b : Snap K => a.start < b.start) ?_
    (pairSnaps_strict h st' n1 n2) ?_ hp
  · intro a b _ _ h1 h2
    exact absurd h1 (lt_asymm h2)
  · rw [List.pairwise_map]
    exact pairSnaps_strict h st n1 n2

theorem good_init {evs : List (Event Nat K)} (h : Clique evs) {n1 n2 : Nat} {ev1 : Snap K}
    {rest : List (Snap K)} (hl : pairSnaps evs (initState evs) n1 n2 = ev1 :: rest) :
    GoodRun ev1 ev1.stop ev1.stop rest := by
  have hm : ∀ s ∈ ev1 :: rest, ∃ e ∈ evs, e.Pair n1 n2 ∧ s.start = e.start ∧ s.stop = e.stop := by
    intro s hs
    rw [← hl] at hs
    obtain ⟨e, h1, h2, h3, h4⟩ := mem_pairSnaps.1 hs
    rw [initState_ends h1] at h4
    exact ⟨e, List.mem_of_getElem? h1, h2, h3, h4⟩
  apply good_of_transitive rest ev1 ev1
  · have := pairSnaps_strict h.distinct (initState evs) n1 n2
    rw [hl] at this
    refine List.Pairwise.imp_of_mem ?_ this
    intro a b ha hb hab
    obtain ⟨e, a1, a2, a3, a4⟩ := hm a ha
    obtain ⟨f, b1, b2, b3, b4⟩ := hm b hb
    refine ⟨hab, ?_⟩
    rw [a3, b3] at hab
    rw [a4, b4]
    exact h.noCont e a1 f b1 (pair_of a2 b2) hab
  · exact Or.inl rfl
  · have key : ∀ x, x ∈ ev1 :: ev1 :: rest → x ∈ ev1 :: rest := by
      intro x hx; simp only [List.mem_cons] at hx ⊢; tauto
    intro a ha b hb c hc
    obtain ⟨e, a1, a2, a3, a4⟩ := hm a (key a ha)
    obtain ⟨f, b1, b2, b3, b4⟩ := hm b (key b hb)
    obtain ⟨g, c1, c2, c3, c4⟩ := hm c (key c hc)
    rw [a3, b3, c3, a4, b4]
    exact h.trans e a1 f b1 g c1 (pair_of a2 b2) (pair_of b2 c2)

theorem mergePair_again {evs : List (Event Nat K)} (h : Clique evs) (n1 n2 : Nat) :
    mergePair evs (mergePair evs (initState evs) n1 n2) n1 n2 =
      mergePair evs (initState evs) n1 n2 := by
  have hup := pairSnaps_update h.distinct (initState evs) (mergePair evs (initState evs) n1 n2) n1 n2
  have hnd := pairSnaps_nodup evs (initState evs) n1 n2
  have hst : ∀ s ∈ pairSnaps evs (initState evs) n1 n2, (initState evs).ends s.id = s.stop := by
    intro s hs
    obtain ⟨e, _, _, _, h4⟩ := mem_pairSnaps.1 hs
    exact h4.symm
  cases hl : pairSnaps evs (initState evs) n1 n2 with
  | nil =>
    have h0 : mergePair evs (initState evs) n1 n2 = initState evs := by simp [mergePair, hl]
    rw [h0, h0]
  | cons ev1 rest =>
    have h0 : mergePair evs (initState evs) n1 n2 = mergeRun ev1 rest (initState evs) := by
      simp [mergePair, hl]
    rw [hl] at hnd hst hup
    have hg := good_init h hl
    have hup' := hup
    rw [List.map_cons] at hup'
    have h1 : mergePair evs (mergePair evs (initState evs) n1 n2) n1 n2 =
        mergeRun { ev1 with stop := (mergePair evs (initState evs) n1 n2).ends ev1.id }
          (rest.map fun s => { s with stop := (mergePair evs (initState evs) n1 n2).ends s.id })
          (mergePair evs (initState evs) n1 n2) := by
      rw [mergePair, hup']
    rw [h1, h0]
    exact good_again rest ev1 ev1.stop ev1.stop (initState evs) _ hg hnd le_rfl (hst ev1 (by simp))
      (fun s hs => hst s (by simp [hs])) rfl (fun _ _ => rfl) (Or.inl rfl)

theorem fold_agree {evs : List (Event Nat K)} (h : Clique evs) (l : List (Nat × Nat)) : ∀ st : MState K,
    (∀ n1 n2, Agree evs n1 n2 st (initState evs) ∨
      Agree evs n1 n2 st (mergePair evs (initState evs) n1 n2)) →
    (∀ n1 n2, Agree evs n1 n2 (l.foldl (fun st p => mergePair evs st p.1 p.2) st) (initState evs) ∨
      Agree evs n1 n2 (l.foldl (fun st p => mergePair evs st p.1 p.2) st)
        (mergePair evs (initState evs) n1 n2)) ∧
    (∀ n1 n2, (Agree evs n1 n2 st (mergePair evs (initState evs) n1 n2) ∨ (n1, n2) ∈ l) →
      Agree evs n1 n2 (l.foldl (fun st p => mergePair evs st p.1 p.2) st)
        (mergePair evs (initState evs) n1 n2)) := by
  induction l with
  | nil =>
    intro st hst
    exact ⟨hst, fun n1 n2 h' => h'.resolve_right (by simp)⟩
  | cons p l ih =>
    intro st hst
    obtain ⟨m1, m2⟩ := p
    -- the visited pair is merged afterwards
    have hvis : ∀ m1 m2, Agree evs m1 m2 (mergePair evs st m1 m2) (mergePair evs (initState evs) m1 m2) := by
      intro m1 m2
      rcases hst m1 m2 with h1 | h1
      · exact mergePair_agree h1
      · have := mergePair_agree h1
        rw [mergePair_again h] at this
        exact this
    have hstep : ∀ n1 n2, (Agree evs n1 n2 (mergePair evs st m1 m2) (mergePair evs (initState evs) n1 n2)) ∨
        (Agree evs n1 n2 (mergePair evs st m1 m2) st) := by
      intro n1 n2
      by_cases hsame : (m1 = n1 ∧ m2 = n2) ∨ (m1 = n2 ∧ m2 = n1)
      · left
        rcases hsame with ⟨rfl, rfl⟩ | ⟨rfl, rfl⟩
        · exact hvis _ _
        · rw [mergePair_symm evs st]; exact hvis _ _
      · right
        intro i hi
        exact mergePair_frame evs m1 m2 st i fun hc => hsame (pairIdx_same hi hc)
    have hst' : ∀ n1 n2, Agree evs n1 n2 (mergePair evs st m1 m2) (initState evs) ∨
        Agree evs n1 n2 (mergePair evs st m1 m2) (mergePair evs (initState evs) n1 n2) := by
      intro n1 n2
      rcases hstep n1 n2 with h1 | h1
      · exact Or.inr h1
      · rcases hst n1 n2 with h2 | h2
        · exact Or.inl fun i hi => ⟨(h1 i hi).1.trans (h2 i hi).1, (h1 i hi).2.trans (h2 i hi).2⟩
        · exact Or.inr fun i hi => ⟨(h1 i hi).1.trans (h2 i hi).1, (h1 i hi).2.trans (h2 i hi).2⟩
    obtain ⟨g1, g2⟩ := ih (mergePair evs st m1 m2) hst'
    refine ⟨g1, ?_⟩
    intro n1 n2 h'
    apply g2
    rcases h' with h' | h'
    · left
      rcases hstep n1 n2 with h1 | h1
      · exact h1
      · exact fun i hi => ⟨(h1 i hi).1.trans (h' i hi).1, (h1 i hi).2.trans (h' i hi).2⟩
    · rcases List.mem_cons.1 h' with h' | h'
      · left
        simp only [Prod.mk.injEq] at h'
        obtain ⟨rfl, rfl⟩ := h'
        exact hvis _ _
      · exact Or.inr h'

theorem passState_agree {n : Nat} {evs : List (Event Nat K)} (hr : InRange n evs) (h : Clique evs)
    {e : Event Nat K} (he : e ∈ evs) : Agree evs e.src e.tgt (passState n evs)
      (mergePair evs (initState evs) e.src e.tgt) :=
  (fold_agree h (visits n evs) (initState evs) (fun _ _ => Or.inl fun _ _ => ⟨rfl, rfl⟩)).2 _ _
    (Or.inr (mem_visits hr h.lasting he))

theorem snap_of {evs : List (Event Nat K)} {n1 n2 i : Nat} {e : Event Nat K} (hi : evs[i]? = some e)
    (hp : e.Pair n1 n2) : (⟨i, e.start, e.stop⟩ : Snap K) ∈ pairSnaps evs (initState evs) n1 n2 :=
  mem_pairSnaps.2 ⟨e, hi, hp, rfl, (initState_ends hi).symm⟩

theorem pass_covers {n : Nat} {evs : List (Event Nat K)} (hr : InRange n evs) (h : Clique evs) {t : K}
    {i j : Nat} (ha : Active evs t i j) : Active (passTable n evs) t i j := by
  obtain ⟨e, he, hp, h1, h2⟩ := ha
  obtain ⟨k, hk⟩ := List.mem_iff_getElem?.1 he
  have hs := snap_of hk (pair_self e)
  have hnd := pairSnaps_nodup evs (initState evs) e.src e.tgt
  have hso := pairSnaps_sorted evs (initState evs) e.src e.tgt
  have hst : ∀ s ∈ pairSnaps evs (initState evs) e.src e.tgt, (initState evs).ends s.id = s.stop := by
    intro s hs
    obtain ⟨e, _, _, _, h4⟩ := mem_pairSnaps.1 hs
    exact h4.symm
  have hag := passState_agree hr h he
  have hmem := fun x => @mem_pairSnaps K _ _ _ evs (initState evs) e.src e.tgt x
  cases hl : pairSnaps evs (initState evs) e.src e.tgt with
  | nil => rw [hl] at hs; cases hs
  | cons ev1 rest =>
    have h0 : mergePair evs (initState evs) e.src e.tgt = mergeRun ev1 rest (initState evs) := by
      simp [mergePair, hl]
    rw [h0] at hag
    rw [hl] at hs hnd hso hst hmem
    obtain ⟨s, c1, c2, c3, c4⟩ := good_covers rest ev1 ev1.stop ev1.stop (initState evs) (good_init h hl)
      hnd (hst ev1 (by simp)) (fun s hs => hst s (by simp [hs])) (fun _ _ => rfl) hso t (by
        rcases List.mem_cons.1 hs with hs | hs
        · left; rw [← hs]; exact ⟨h1, h2⟩
        · exact Or.inr ⟨_, hs, h1, h2⟩)
    obtain ⟨f, f1, f2, f3, f4⟩ := (hmem s).1 c1
    have hag' := hag s.id ⟨f, f1, f2⟩
    refine ⟨{ f with stop := (passState n evs).ends s.id }, mem_passTable.2 ⟨s.id, f, f1, ?_, rfl⟩, ?_, ?_, ?_⟩
    · rw [hag'.2]; exact c2
    · exact pair_trans (e := f) (f := e) f2 hp
    · rw [← f3]; exact c3
    · show t < (passState n evs).ends s.id
      rw [hag'.1]; exact c4

theorem pass_noOverlaps {n : Nat} {evs : List (Event Nat K)} (hr : InRange n evs) (h : Clique evs) :
    NoOverlaps (passTable n evs) := by
  unfold NoOverlaps passTable
  rw [List.pairwise_map]
  have hz : (evs.zipIdx).Pairwise fun p q => p.2 ≠ q.2 := by
    have : (evs.zipIdx.map Prod.snd).Nodup := by
      rw [List.zipIdx_map_snd]; exact List.nodup_range'
    rw [List.nodup_iff_pairwise_ne, List.pairwise_map] at this
    exact this
  refine List.Pairwise.imp_of_mem ?_ (hz.sublist List.filter_sublist)
  rintro ⟨e, i⟩ ⟨f, j⟩ hi hj hij hp
  simp only [List.mem_filter, mem_zip] at hi hj
  have hp' : e.Pair f.src f.tgt := hp
  show (passState n evs).ends i ≤ f.start ∨ (passState n evs).ends j ≤ e.start
  have hf : f ∈ evs := List.mem_of_getElem? hj.1
  have hag := passState_agree hr h hf
  have hsi := snap_of hi.1 hp'
  have hsj := snap_of hj.1 (pair_self f)
  have hnd := pairSnaps_nodup evs (initState evs) f.src f.tgt
  have hso := pairSnaps_sorted evs (initState evs) f.src f.tgt
  have hst : ∀ s ∈ pairSnaps evs (initState evs) f.src f.tgt, (initState evs).ends s.id = s.stop := by
    intro s hs
    obtain ⟨e, _, _, _, h4⟩ := mem_pairSnaps.1 hs
    exact h4.symm
  cases hl : pairSnaps evs (initState evs) f.src f.tgt with
  | nil => rw [hl] at hsj; cases hsj
  | cons ev1 rest =>
    have h0 : mergePair evs (initState evs) f.src f.tgt = mergeRun ev1 rest (initState evs) := by
      simp [mergePair, hl]
    rw [h0] at hag
    rw [hl] at hsi hsj hnd hso hst
    have hpw := good_separate rest ev1 ev1.stop ev1.stop (initState evs) (good_init h hl)
      hnd (hst ev1 (by simp)) (fun s hs => hst s (by simp [hs])) hso
    have hai := hag i ⟨e, hi.1, hp'⟩
    have haj := hag j ⟨f, hj.1, pair_self f⟩
    have hmi : (⟨i, e.start, e.stop⟩ : Snap K) ∈ (ev1 :: rest).filter
        fun s => (mergeRun ev1 rest (initState evs)).keep s.id := by
      rw [List.mem_filter]
      exact ⟨hsi, by show (mergeRun ev1 rest (initState evs)).keep i = true; rw [← hai.2]; exact hi.2⟩
    have hmj : (⟨j, f.start, f.stop⟩ : Snap K) ∈ (ev1 :: rest).filter
        fun s => (mergeRun ev1 rest (initState evs)).keep s.id := by
      rw [List.mem_filter]
      exact ⟨hsj, by show (mergeRun ev1 rest (initState evs)).keep j = true; rw [← haj.2]; exact hj.2⟩
    rw [hai.1, haj.1]
    obtain ⟨a, ha, hae⟩ := List.mem_iff_getElem.1 hmi
    obtain ⟨b, hb, hbe⟩ := List.mem_iff_getElem.1 hmj
    rw [List.pairwise_iff_getElem] at hpw
    rcases lt_trichotomy a b with hab | hab | hab
    · left
      have := hpw a b ha hb hab
      rw [hae, hbe] at this
      exact this
    · subst hab
      rw [hae] at hbe
      simp only [Snap.mk.injEq] at hbe
      exact absurd hbe.1 hij
    · right
      have := hpw b a hb ha hab
      rw [hae, hbe] at this
      exact this

end Verif.Merge
