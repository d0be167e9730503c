import Verif.Races.Model
import Verif.Info.Versions

/-!
# C95: the parallel variation of information under all orders of accesses
-/

set_option linter.dupNamespace false
set_option linter.unusedSectionVars false

namespace Verif.Races

variable {K : Type} [Field K]

/-- What is left to subtract. -/
def left (s : State K) : Multiset K := (s.threads.map fun th => (th.todo : Multiset K)).sum

theorem sum_set (l : List (Thread K)) (t : Nat) (th th' : Thread K) (h : l[t]? = some th) :
    ((l.map fun th => (th.todo : Multiset K)).sum + (th'.todo : Multiset K)) =
      ((l.set t th').map fun th => (th.todo : Multiset K)).sum + (th.todo : Multiset K) := by
  induction l generalizing t with
  | nil => simp at h
  | cons a l ih =>
    cases t with
    | zero =>
      simp only [List.getElem?_cons_zero, Option.some.injEq] at h
      subst h
      simp only [List.set_cons_zero, List.map_cons, List.sum_cons]
      abel
    | succ t =>
      simp only [List.getElem?_cons_succ] at h
      simp only [List.set_cons_succ, List.map_cons, List.sum_cons]
      rw [add_assoc, ih t h, add_assoc]

/-- The value is the start value minus some of the terms already handled. -/
def Reach (m : K) (total rest : Multiset K) (v : K) : Prop := ∃ J, J + rest ≤ total ∧ v = m - J.sum

/-- The invariant of all orders. -/
structure Inv (m : K) (total : Multiset K) (s : State K) : Prop where
  rest : left s ≤ total
  mem : Reach m total (left s) s.mem
  loaded : ∀ th ∈ s.threads, ∀ v, th.loaded = some v → Reach m total (left s) v
  touched : left s < total → ∃ J, J ≠ 0 ∧ J + left s ≤ total ∧ s.mem = m - J.sum

theorem inv_step (m : K) (total : Multiset K) (s : State K) (t : Nat) (h : Inv m total s) :
    Inv m total (step s t) := by
  unfold step
  cases ht : s.threads[t]? with
  | none => exact h
  | some th =>
    cases htd : th.todo with
    | nil => simpa [htd] using h
    | cons x rest =>
      cases hl : th.loaded with
      | none =>
        have hsum := sum_set s.threads t th ⟨some s.mem, x :: rest⟩ ht
        rw [htd] at hsum
        have heq : left ⟨s.mem, s.threads.set t ⟨some s.mem, x :: rest⟩⟩ = left s := by
          unfold left
          exact (add_right_cancel hsum).symm
        simp only [htd, hl]
        refine ⟨?_, ?_, ?_, ?_⟩
        · rw [heq]; exact h.rest
        · rw [heq]; exact h.mem
        · intro th' hth' v hv
          rw [heq]
          rcases List.mem_or_eq_of_mem_set hth' with h1 | h1
          · exact h.loaded th' h1 v hv
          · subst h1
            simp only [Option.some.injEq] at hv
            subst hv
            exact h.mem
        · rw [heq]; exact h.touched
      | some v =>
        have hsum := sum_set s.threads t th ⟨none, rest⟩ ht
        rw [htd] at hsum
        have heq : left s = left ⟨v - x, s.threads.set t ⟨none, rest⟩⟩ + {x} := by
          unfold left
          have h2 : ((x :: rest : List K) : Multiset K) = (rest : Multiset K) + {x} := by
            rw [← Multiset.cons_coe, ← Multiset.singleton_add, add_comm]
          rw [h2, ← add_assoc, add_right_comm] at hsum
          exact add_right_cancel hsum
        simp only [htd, hl]
        have hle : left ⟨v - x, s.threads.set t ⟨none, rest⟩⟩ ≤ left s := by
          rw [heq]; exact Multiset.le_add_right _ _
        have hlift : ∀ w, Reach m total (left s) w →
            Reach m total (left ⟨v - x, s.threads.set t ⟨none, rest⟩⟩) w := by
          rintro w ⟨J, hJ, hw⟩
          exact ⟨J, le_trans (add_le_add (le_refl J) hle) hJ, hw⟩
        obtain ⟨J, hJ, hv⟩ := h.loaded th (List.mem_of_getElem? ht) v hl
        have hnew : ∃ J', J' ≠ 0 ∧ J' + left ⟨v - x, s.threads.set t ⟨none, rest⟩⟩ ≤ total ∧ v - x = m - J'.sum := by
          refine ⟨J + {x}, by simp, ?_, ?_⟩
          · rw [add_assoc, add_comm ({x} : Multiset K), ← heq]; exact hJ
          · rw [hv, Multiset.sum_add, Multiset.sum_singleton]; ring
        refine ⟨le_trans hle h.rest, ?_, ?_, ?_⟩
        · obtain ⟨J', _, h1, h2⟩ := hnew
          exact ⟨J', h1, h2⟩
        · intro th' hth' w hw
          rcases List.mem_or_eq_of_mem_set hth' with h1 | h1
          · exact hlift w (h.loaded th' h1 w hw)
          · subst h1
            cases hw
        · intro _
          exact hnew

theorem left_start (m : K) (chunks : List (List K)) : left (start m chunks) = (chunks.flatten : Multiset K) := by
  unfold left start
  induction chunks with
  | nil => rfl
  | cons c chunks ih =>
    simp only [List.map_cons, List.sum_cons, List.flatten_cons] at ih ⊢
    rw [ih, Multiset.coe_add]

theorem inv_start (m : K) (chunks : List (List K)) : Inv m (chunks.flatten : Multiset K) (start m chunks) := by
  have hl := left_start m chunks
  refine ⟨le_of_eq hl, ⟨0, by rw [hl, zero_add], by simp [start]⟩, ?_, ?_⟩
  · intro th hth v hv
    obtain ⟨c, _, rfl⟩ := List.mem_map.1 hth
    cases hv
  · intro h
    rw [hl] at h
    exact absurd h (lt_irrefl _)

theorem inv_exec (m : K) (total : Multiset K) (sched : List Nat) : ∀ s, Inv m total s → Inv m total (exec s sched) := by
  induction sched with
  | nil => intro s h; exact h
  | cons t sched ih => intro s h; exact ih _ (inv_step m total s t h)

theorem left_finished (s : State K) (h : Finished s) : left s = 0 := by
  unfold left
  apply List.sum_eq_zero
  intro x hx
  obtain ⟨th, hth, rfl⟩ := List.mem_map.1 hx
  rw [h th hth]
  rfl

/-- **C95**: whatever the order of the accesses of the threads, when all have ended the element is its
content before minus the sum of some of the terms, of at least one if there is any: terms can be
lost, but none is subtracted twice and nothing else is added. -/
theorem C95_any_order (m : K) (chunks : List (List K)) (sched : List Nat)
    (hf : Finished (exec (start m chunks) sched)) :
    ∃ J : Multiset K, J ≤ (chunks.flatten : Multiset K) ∧ (chunks.flatten ≠ [] → J ≠ 0) ∧
      (exec (start m chunks) sched).mem = m - J.sum := by
  have h := inv_exec m _ sched _ (inv_start m chunks)
  have h0 := left_finished _ hf
  by_cases hc : chunks.flatten = []
  · obtain ⟨J, h1, h2⟩ := h.mem
    rw [h0, add_zero] at h1
    exact ⟨J, h1, fun hne => absurd hc hne, h2⟩
  · have hlt : left (exec (start m chunks) sched) < (chunks.flatten : Multiset K) := by
      rw [h0]
      refine lt_of_le_of_ne (Multiset.zero_le _) ?_
      intro he
      apply hc
      have : (chunks.flatten : Multiset K) = 0 := he.symm
      simpa using this
    obtain ⟨J, h1, h2, h3⟩ := h.touched hlt
    rw [h0, add_zero] at h2
    exact ⟨J, h2, fun _ => h1, h3⟩

example : Finished (exec (start (5 : ℚ) [[-1], [-2]]) [0, 1, 0, 1]) ∧
    (exec (start (5 : ℚ) [[-1], [-2]]) [0, 1, 0, 1]).mem = 7 := by
  constructor
  · intro th hth
    have : (exec (start (5 : ℚ) [[-1], [-2]]) [0, 1, 0, 1]).threads = [⟨none, []⟩, ⟨none, []⟩] := rfl
    rw [this] at hth
    simp only [List.mem_cons, List.not_mem_nil, or_false] at hth
    rcases hth with rfl | rfl <;> rfl
  · show (5 : ℚ) - (-2) = 7
    norm_num

/-! ## Updates that are not interrupted -/

/-- No thread is in the middle of an update. -/
def Calm (s : State K) : Prop := ∀ th ∈ s.threads, th.loaded = none

theorem calm_start (m : K) (chunks : List (List K)) : Calm (start m chunks) := by
  intro th hth
  obtain ⟨c, _, rfl⟩ := List.mem_map.1 hth
  rfl

theorem pair_step (s : State K) (t : Nat) (hc : Calm s) :
    Calm (step (step s t) t) ∧
    (step (step s t) t).mem - (left (step (step s t) t)).sum = s.mem - (left s).sum := by
  cases ht : s.threads[t]? with
  | none =>
    have : step s t = s := by unfold step; rw [ht]
    rw [this, this]
    exact ⟨hc, rfl⟩
  | some th =>
    cases htd : th.todo with
    | nil =>
      have : step s t = s := by unfold step; rw [ht]; simp [htd]
      rw [this, this]
      exact ⟨hc, rfl⟩
    | cons x rest =>
      have hl : th.loaded = none := hc th (List.mem_of_getElem? ht)
      have hlt : t < s.threads.length := (List.getElem?_eq_some_iff.1 ht).1
      have h1 : step s t = ⟨s.mem, s.threads.set t ⟨some s.mem, x :: rest⟩⟩ := by
        unfold step; rw [ht]; simp [htd, hl]
      have h2 : step (step s t) t = ⟨s.mem - x, s.threads.set t ⟨none, rest⟩⟩ := by
        rw [h1]
        unfold step
        simp [hlt]
      rw [h2]
      constructor
      · intro th' hth'
        rcases List.mem_or_eq_of_mem_set hth' with h3 | h3
        · exact hc th' h3
        · rw [h3]
      · have hsum := sum_set s.threads t th ⟨none, rest⟩ ht
        rw [htd] at hsum
        have heq : left s = left ⟨s.mem - x, s.threads.set t ⟨none, rest⟩⟩ + {x} := by
          unfold left
          have h2 : ((x :: rest : List K) : Multiset K) = (rest : Multiset K) + {x} := by
            rw [← Multiset.cons_coe, ← Multiset.singleton_add, add_comm]
          rw [h2, ← add_assoc, add_right_comm] at hsum
          exact add_right_cancel hsum
        rw [heq, Multiset.sum_add, Multiset.sum_singleton]
        ring

/-- **C95**: if no update is interrupted by another thread, the element ends as its content before minus
all terms, for every division between threads and every order of the updates. -/
theorem C95_whole_updates (m : K) (chunks : List (List K)) (order : List Nat)
    (hf : Finished (exec (start m chunks) (order.flatMap fun t => [t, t]))) :
    (exec (start m chunks) (order.flatMap fun t => [t, t])).mem = m - chunks.flatten.sum := by
  have key : ∀ (order : List Nat) (s : State K), Calm s →
      (exec s (order.flatMap fun t => [t, t])).mem - (left (exec s (order.flatMap fun t => [t, t]))).sum =
        s.mem - (left s).sum := by
    intro order
    induction order with
    | nil => intro s _; rfl
    | cons t order ih =>
      intro s hc
      obtain ⟨h1, h2⟩ := pair_step s t hc
      have := ih _ h1
      rw [h2] at this
      exact this
  have h := key order _ (calm_start m chunks)
  rw [left_finished _ hf, left_start] at h
  simpa [start] using h

/-! ## One thread -/

theorem C95_one_thread_aux (sched : List Nat) : ∀ (s : State K), s.threads.length = 1 →
    (∀ th ∈ s.threads, ∀ v, th.loaded = some v → v = s.mem) →
    (exec s sched).threads.length = 1 ∧
    (exec s sched).mem - (left (exec s sched)).sum = s.mem - (left s).sum := by
  induction sched with
  | nil => intro s h _; exact ⟨h, rfl⟩
  | cons t sched ih =>
    intro s hlen hl
    have hstep : (step s t).threads.length = 1 ∧ (∀ th ∈ (step s t).threads, ∀ v, th.loaded = some v → v = (step s t).mem) ∧
        (step s t).mem - (left (step s t)).sum = s.mem - (left s).sum := by
      cases ht : s.threads[t]? with
      | none =>
        have : step s t = s := by unfold step; rw [ht]
        rw [this]
        exact ⟨hlen, hl, rfl⟩
      | some th =>
        have hlt : t < s.threads.length := (List.getElem?_eq_some_iff.1 ht).1
        obtain rfl : t = 0 := by omega
        obtain ⟨a, ha⟩ := List.length_eq_one_iff.1 hlen
        have hath : a = th := by rw [ha] at ht; simpa using ht
        subst hath
        cases htd : a.todo with
        | nil =>
          have : step s 0 = s := by unfold step; rw [ht]; simp [htd]
          rw [this]
          exact ⟨hlen, hl, rfl⟩
        | cons x rest =>
          cases hld : a.loaded with
          | none =>
            have h1 : step s 0 = ⟨s.mem, [⟨some s.mem, x :: rest⟩]⟩ := by
              unfold step; rw [ht]; simp [htd, hld, ha]
            rw [h1]
            refine ⟨rfl, ?_, ?_⟩
            · intro th hth v hv
              simp only [List.mem_singleton] at hth
              subst hth
              simpa using hv.symm
            · simp [left, ha, htd]
          | some v =>
            have hv := hl a (by rw [ha]; simp) v hld
            have h1 : step s 0 = ⟨v - x, [⟨none, rest⟩]⟩ := by
              unfold step; rw [ht]; simp [htd, hld, ha]
            rw [h1]
            refine ⟨rfl, ?_, ?_⟩
            · intro th hth w hw
              simp only [List.mem_singleton] at hth
              subst hth
              cases hw
            · simp [left, ha, htd, hv]
              ring
    obtain ⟨h1, h2, h3⟩ := hstep
    obtain ⟨h4, h5⟩ := ih _ h1 h2
    exact ⟨h4, h5.trans h3⟩

/-- **C95**: with one thread the element ends as its content before minus all terms. -/
theorem C95_one_thread (m : K) (ts : List K) (sched : List Nat) (hf : Finished (exec (start m [ts]) sched)) :
    (exec (start m [ts]) sched).mem = m - ts.sum := by
  have h := (C95_one_thread_aux sched (start m [ts]) rfl (by
    intro th hth v hv
    obtain ⟨c, _, rfl⟩ := List.mem_map.1 hth
    cases hv)).2
  rw [left_finished _ hf, left_start] at h
  simpa [start] using h

example : Finished (exec (start (5 : ℚ) [[-1, -2]]) [0, 0, 0, 0]) ∧
    Finished (exec (start (5 : ℚ) [[-1], [-2]]) ([1, 0].flatMap fun t => [t, t])) := by
  constructor
  · intro th hth
    have : (exec (start (5 : ℚ) [[-1, -2]]) [0, 0, 0, 0]).threads = [⟨none, []⟩] := rfl
    rw [this] at hth
    simp only [List.mem_cons, List.not_mem_nil, or_false] at hth
    rw [hth]
  · intro th hth
    have : (exec (start (5 : ℚ) [[-1], [-2]]) ([1, 0].flatMap fun t => [t, t])).threads =
        [⟨none, []⟩, ⟨none, []⟩] := rfl
    rw [this] at hth
    simp only [List.mem_cons, List.not_mem_nil, or_false] at hth
    rcases hth with rfl | rfl <;> rfl

/-! ## Lost updates -/

/-- Thread `t` alone makes all of its updates. -/
theorem alone (t : Nat) : ∀ (ts : List K) (s : State K), s.threads[t]? = some ⟨none, ts⟩ →
    exec s (ts.flatMap fun _ => [t, t]) = ⟨s.mem - ts.sum, s.threads.set t ⟨none, []⟩⟩ := by
  intro ts
  induction ts with
  | nil =>
    intro s h
    have hlt : t < s.threads.length := (List.getElem?_eq_some_iff.1 h).1
    have h2 : s.threads[t] = ⟨none, []⟩ := (List.getElem?_eq_some_iff.1 h).2
    cases s with
    | mk mem threads =>
      simp only [exec, List.flatMap_nil, List.foldl_nil, List.sum_nil, sub_zero]
      congr 1
      simp only at h2 hlt
      rw [← h2, List.set_getElem_self]
  | cons x ts ih =>
    intro s h
    have hlt : t < s.threads.length := (List.getElem?_eq_some_iff.1 h).1
    have h1 : step s t = ⟨s.mem, s.threads.set t ⟨some s.mem, x :: ts⟩⟩ := by unfold step; rw [h]
    have h2 : step (step s t) t = ⟨s.mem - x, s.threads.set t ⟨none, ts⟩⟩ := by
      rw [h1]; unfold step; simp [hlt]
    have h3 : exec s ((x :: ts).flatMap fun _ => [t, t]) =
        exec (step (step s t) t) (ts.flatMap fun _ => [t, t]) := rfl
    rw [h3, h2, ih _ (by simp [hlt])]
    simp only [List.sum_cons, List.set_set]
    congr 1
    ring

/-- The threads `t, t+1, …` make their updates one after the other. -/
theorem all_alone (chunks : List (List K)) : ∀ (pre : List (Thread K)) (m : K),
    ∃ sched m', exec ⟨m, pre ++ chunks.map fun c => ⟨none, c⟩⟩ sched =
      ⟨m', pre ++ chunks.map fun _ => ⟨none, []⟩⟩ := by
  induction chunks with
  | nil => intro pre m; exact ⟨[], m, rfl⟩
  | cons c chunks ih =>
    intro pre m
    have h1 := alone pre.length c ⟨m, pre ++ (c :: chunks).map fun c => ⟨none, c⟩⟩ (by simp)
    have h2 : (pre ++ (c :: chunks).map fun c => (⟨none, c⟩ : Thread K)).set pre.length ⟨none, []⟩ =
        (pre ++ [⟨none, []⟩]) ++ chunks.map fun c => ⟨none, c⟩ := by simp
    rw [h2] at h1
    obtain ⟨sched, m', h3⟩ := ih (pre ++ [⟨none, []⟩]) (m - c.sum)
    refine ⟨(c.flatMap fun _ => [pre.length, pre.length]) ++ sched, m', ?_⟩
    unfold exec at h1 h3 ⊢
    rw [List.foldl_append, h1, h3]
    simp

/-- The first thread loads, the others make all their updates, then the first thread stores: all updates
of the others are lost. -/
theorem lose_others (m : K) (x : K) (xs : List K) (others : List (List K)) :
    ∃ sched, Finished (exec (start m ((x :: xs) :: others)) sched) ∧
      (exec (start m ((x :: xs) :: others)) sched).mem = m - (x :: xs).sum := by
  obtain ⟨sched, m', h⟩ := all_alone others [⟨some m, x :: xs⟩] m
  have hl : step (start m ((x :: xs) :: others)) 0 =
      ⟨m, [⟨some m, x :: xs⟩] ++ others.map fun c => ⟨none, c⟩⟩ := rfl
  have hs : step (⟨m', [⟨some m, x :: xs⟩] ++ others.map fun _ => ⟨none, []⟩⟩ : State K) 0 =
      ⟨m - x, [⟨none, xs⟩] ++ others.map fun _ => ⟨none, []⟩⟩ := rfl
  have hfin := alone 0 xs (⟨m - x, [⟨none, xs⟩] ++ others.map fun _ => ⟨none, []⟩⟩ : State K) rfl
  refine ⟨0 :: sched ++ 0 :: (xs.flatMap fun _ => [0, 0]), ?_⟩
  have he : exec (start m ((x :: xs) :: others)) (0 :: sched ++ 0 :: (xs.flatMap fun _ => [0, 0])) =
      ⟨m - x - xs.sum, [⟨none, []⟩] ++ others.map fun _ => ⟨none, []⟩⟩ := by
    unfold exec at h hfin ⊢
    rw [List.foldl_append, List.foldl_cons, List.foldl_cons, hl, h, hs, hfin]
    simp
  rw [he]
  constructor
  · intro th hth
    simp only [List.singleton_append, List.mem_cons, List.mem_map] at hth
    rcases hth with rfl | ⟨_, _, rfl⟩ <;> rfl
  · simp only [List.sum_cons]
    ring

/-- **C95** (violated): if two threads have terms that are not zero, of the same sign, an order of the
accesses exists in which all threads end and the element is not its content before minus all
terms. -/
theorem C95_lost_updates_violated {K : Type} [Field K] [LinearOrder K] [IsStrictOrderedRing K] (m : K)
    (chunks : List (List K)) (hneg : ∀ c ∈ chunks, ∀ x ∈ c, x ≤ 0) (a : List K) (others : List (List K))
    (hc : chunks = a :: others) (ha : a ≠ []) (b : List K) (hb : b ∈ others) (hbx : ∃ x ∈ b, x < 0) :
    ∃ sched, Finished (exec (start m chunks) sched) ∧
      (exec (start m chunks) sched).mem < m - chunks.flatten.sum := by
  subst hc
  cases a with
  | nil => exact absurd rfl ha
  | cons x xs =>
    obtain ⟨sched, h1, h2⟩ := lose_others m x xs others
    refine ⟨sched, h1, ?_⟩
    rw [h2, List.flatten_cons, List.sum_append]
    have hlt : others.flatten.sum < 0 := by
      have hnp : ∀ y ∈ others.flatten, y ≤ 0 := by
        intro y hy
        obtain ⟨c, hc, hyc⟩ := List.mem_flatten.1 hy
        exact hneg c (List.mem_cons_of_mem _ hc) y hyc
      obtain ⟨z, hz, hz0⟩ := hbx
      have hzm : z ∈ others.flatten := List.mem_flatten.2 ⟨b, hb, hz⟩
      generalize others.flatten = E at hnp hzm
      have := List.sum_lt_sum (l := E) (fun y : K => y) (fun _ => 0) hnp ⟨z, hzm, hz0⟩
      simpa using this
    linarith

example : ∃ sched, Finished (exec (start (0 : ℚ) [[-1], [-2, 0]]) sched) ∧
    (exec (start (0 : ℚ) [[-1], [-2, 0]]) sched).mem < 3 := by
  obtain ⟨sched, h1, h2⟩ := C95_lost_updates_violated (0 : ℚ) [[-1], [-2, 0]] (by
    intro c hc x hx
    simp only [List.mem_cons, List.not_mem_nil, or_false] at hc
    rcases hc with rfl | rfl <;> simp only [List.mem_cons, List.not_mem_nil, or_false] at hx
    · rw [hx]; norm_num
    · rcases hx with rfl | rfl <;> norm_num) [-1] [[-2, 0]] rfl (by simp) [-2, 0] (by simp)
    ⟨-2, by simp, by norm_num⟩
  refine ⟨sched, h1, lt_of_lt_of_eq h2 ?_⟩
  norm_num

/-! ## The measure -/

theorem nviTerm_nonpos (ni nj nij : Nat) (h1 : nij ≤ ni) (h2 : nij ≤ nj) : Info.nviTerm ni nj nij ≤ 0 := by
  unfold Info.nviTerm
  split
  · rename_i h
    apply mul_nonpos_of_nonneg_of_nonpos (Nat.cast_nonneg _)
    have hi : (0 : ℝ) < ni := by exact_mod_cast (by omega : 0 < ni)
    have hj : (0 : ℝ) < nj := by exact_mod_cast (by omega : 0 < nj)
    apply Real.logb_nonpos (by norm_num) (by positivity)
    rw [div_le_one (by positivity), sq]
    have e1 : (nij : ℝ) ≤ ni := by exact_mod_cast h1
    have e2 : (nij : ℝ) ≤ nj := by exact_mod_cast h2
    exact mul_le_mul e1 e2 (Nat.cast_nonneg _) (le_of_lt hi)
  · exact le_refl _

theorem nviTerm_neg (ni nj nij : Nat) (h0 : 0 < nij) (h1 : nij < ni) (h2 : nij ≤ nj) : Info.nviTerm ni nj nij < 0 := by
  unfold Info.nviTerm
  rw [if_pos h0]
  have hi : (0 : ℝ) < ni := by exact_mod_cast (by omega : 0 < ni)
  have hj : (0 : ℝ) < nj := by exact_mod_cast (by omega : 0 < nj)
  have hij : (0 : ℝ) < nij := by exact_mod_cast h0
  apply mul_neg_of_pos_of_neg hij
  apply Real.logb_neg (by norm_num) (by positivity)
  rw [div_lt_one (by positivity), sq]
  have e1 : (nij : ℝ) < ni := by exact_mod_cast h1
  have e2 : (nij : ℝ) ≤ nj := by exact_mod_cast h2
  exact mul_lt_mul e1 e2 hij (le_of_lt hi)

theorem terms_nonpos (c1 : Finset Nat) (cs : List (Finset Nat)) : ∀ x ∈ terms c1 cs, x ≤ 0 := by
  intro x hx
  obtain ⟨c2, _, rfl⟩ := List.mem_map.1 hx
  exact nviTerm_nonpos _ _ _ (Finset.card_le_card Finset.inter_subset_left) (Finset.card_le_card Finset.inter_subset_right)

theorem terms_sum (c1 : Finset Nat) (cs : List (Finset Nat)) :
    (terms c1 cs).sum = (cs.map fun c2 => Info.nviTerm c1.card c2.card (c1 ∩ c2).card).sum := by
  unfold terms
  induction cs with
  | nil => rfl
  | cons c cs ih =>
    rw [List.filter_cons]
    split
    · rw [List.map_cons, List.sum_cons, ih, List.map_cons, List.sum_cons]
    · rename_i h
      rw [ih, List.map_cons, List.sum_cons]
      have : Info.nviTerm c1.card c.card (c1 ∩ c).card = 0 := by
        unfold Info.nviTerm
        rw [if_neg (by simpa using h)]
      rw [this, zero_add]

theorem blocks_sum (c1 : Finset Nat) (blocks : List (List (Finset Nat))) :
    (blocks.map (terms c1)).flatten.sum =
      (blocks.flatten.map fun c2 => Info.nviTerm c1.card c2.card (c1 ∩ c2).card).sum := by
  induction blocks with
  | nil => rfl
  | cons b blocks ih =>
    rw [List.map_cons, List.flatten_cons, List.sum_append, ih, terms_sum, List.flatten_cons, List.map_append,
      List.sum_append]

theorem row_in_order (c1 : Finset Nat) (cs : List (Finset Nat)) (m : ℝ) :
    cs.foldl (fun v c2 => v - Info.nviTerm c1.card c2.card (c1 ∩ c2).card) m =
      m - (cs.map fun c2 => Info.nviTerm c1.card c2.card (c1 ∩ c2).card).sum :=
  Info.foldl_sub _ cs m

/-- Some order in which all threads end and no update is lost. -/
theorem exists_whole (m : K) (chunks : List (List K)) : ∃ order : List Nat,
    Finished (exec (start m chunks) (order.flatMap fun t => [t, t])) := by
  have key : ∀ (chunks : List (List K)) (pre : List (Thread K)) (m : K), ∃ (order : List Nat) (m' : K),
      exec ⟨m, pre ++ chunks.map fun c => ⟨none, c⟩⟩ (order.flatMap fun t => [t, t]) =
        ⟨m', pre ++ chunks.map fun _ => ⟨none, []⟩⟩ := by
    intro chunks
    induction chunks with
    | nil => intro pre m; exact ⟨[], m, rfl⟩
    | cons c chunks ih =>
      intro pre m
      have h1 := alone pre.length c ⟨m, pre ++ (c :: chunks).map fun c => ⟨none, c⟩⟩ (by simp)
      have h2 : (pre ++ (c :: chunks).map fun c => (⟨none, c⟩ : Thread K)).set pre.length ⟨none, []⟩ =
          (pre ++ [⟨none, []⟩]) ++ chunks.map fun c => ⟨none, c⟩ := by simp
      rw [h2] at h1
      obtain ⟨order, m', h3⟩ := ih (pre ++ [⟨none, []⟩]) (m - c.sum)
      refine ⟨c.map (fun _ => pre.length) ++ order, m', ?_⟩
      unfold exec at h1 h3 ⊢
      rw [List.flatMap_append, List.flatMap_map, List.foldl_append, h1, h3]
      simp
  obtain ⟨order, m', h⟩ := key chunks [] m
  refine ⟨order, ?_⟩
  have h' : exec (start m chunks) (order.flatMap fun t => [t, t]) = ⟨m', chunks.map fun _ => ⟨none, []⟩⟩ := h
  rw [h']
  intro th hth
  obtain ⟨_, _, rfl⟩ := List.mem_map.1 hth
  rfl

/-- **C95**: with whole updates in every row the result is the one of the version that goes through the
clusters in order, for every division of the clusters between threads. -/
theorem C95_measure_partial (mem : Nat → ℝ) (order : Nat → List Nat) (cs1 : List (Finset Nat))
    (blocks : List (List (Finset Nat))) (n : Nat)
    (hf : ∀ p ∈ cs1.zipIdx, Finished (rowEnd p.1 blocks (mem p.2) ((order p.2).flatMap fun t => [t, t]))) :
    nviThreads mem (fun i => (order i).flatMap fun t => [t, t]) cs1 blocks n =
      Info.nviParallel mem cs1 blocks.flatten n := by
  unfold nviThreads Info.nviParallel
  congr 2
  apply List.map_congr_left
  intro p hp
  rw [row_in_order]
  have := C95_whole_updates (mem p.2) (blocks.map (terms p.1)) (order p.2) (hf p hp)
  rw [blocks_sum] at this
  exact this

/-- **C95** (violated): the parallel variation of information depends on the order in which the threads
access memory.  For every two clusterings with a cluster that has nodes in common with a cluster of the
first thread and with one of another thread, without being contained in the latter, there are orders
in which all threads end and the result is smaller than the one computed in order, whatever the
memory contains at the start. -/
theorem C95_measure_violated (mem : Nat → ℝ) (cs1 : List (Finset Nat)) (first : List (Finset Nat))
    (others : List (List (Finset Nat))) (n : Nat) (hn : 2 ≤ n) (c1 : Finset Nat) (hc1 : c1 ∈ cs1)
    (a : Finset Nat) (ha : a ∈ first) (hia : (c1 ∩ a).Nonempty)
    (blk : List (Finset Nat)) (hblk : blk ∈ others) (b : Finset Nat) (hb : b ∈ blk) (hib : (c1 ∩ b).Nonempty)
    (hnot : ¬ c1 ⊆ b) :
    ∃ sched : Nat → List Nat,
      (∀ p ∈ cs1.zipIdx, Finished (rowEnd p.1 (first :: others) (mem p.2) (sched p.2))) ∧
      nviThreads mem sched cs1 (first :: others) n < Info.nviParallel mem cs1 (first :: others).flatten n := by
  classical
  -- the schedule of every row
  have hrow : ∀ (c : Finset Nat) (m : ℝ), ∃ sched, Finished (rowEnd c (first :: others) m sched) ∧
      (rowEnd c (first :: others) m sched).mem ≤
        m - ((first :: others).flatten.map fun c2 => Info.nviTerm c.card c2.card (c ∩ c2).card).sum ∧
      (c = c1 → (rowEnd c (first :: others) m sched).mem <
        m - ((first :: others).flatten.map fun c2 => Info.nviTerm c.card c2.card (c ∩ c2).card).sum) := by
    intro c m
    by_cases hc : c = c1
    · subst hc
      have hneg : ∀ ch ∈ (first :: others).map (terms c), ∀ x ∈ ch, x ≤ 0 := by
        intro ch hch x hx
        obtain ⟨cs, _, rfl⟩ := List.mem_map.1 hch
        exact terms_nonpos c cs x hx
      have hane : terms c first ≠ [] := by
        intro h
        have : Info.nviTerm c.card a.card (c ∩ a).card ∈ terms c first := by
          unfold terms
          exact List.mem_map.2 ⟨a, List.mem_filter.2 ⟨ha, by simpa using Finset.card_pos.2 hia⟩, rfl⟩
        rw [h] at this
        cases this
      have hlt : (c ∩ b).card < c.card := by
        apply Finset.card_lt_card
        refine ⟨Finset.inter_subset_left, fun h => hnot fun v hv => (Finset.mem_inter.1 (h hv)).2⟩
      obtain ⟨sched, h1, h2⟩ := C95_lost_updates_violated m ((first :: others).map (terms c)) hneg (terms c first)
        (others.map (terms c)) rfl hane (terms c blk) (List.mem_map.2 ⟨blk, hblk, rfl⟩)
        ⟨Info.nviTerm c.card b.card (c ∩ b).card, by
          unfold terms
          exact List.mem_map.2 ⟨b, List.mem_filter.2 ⟨hb, by simpa using Finset.card_pos.2 hib⟩, rfl⟩,
          nviTerm_neg _ _ _ (Finset.card_pos.2 hib) hlt (Finset.card_le_card Finset.inter_subset_right)⟩
      rw [blocks_sum] at h2
      exact ⟨sched, h1, le_of_lt h2, fun _ => h2⟩
    · obtain ⟨order, ho⟩ := exists_whole m ((first :: others).map (terms c))
      have h2 := C95_whole_updates m ((first :: others).map (terms c)) order ho
      rw [blocks_sum] at h2
      exact ⟨_, ho, le_of_eq h2, fun h => absurd h hc⟩
  choose f hf1 hf2 hf3 using hrow
  refine ⟨fun i => f (cs1.getD i ∅) (mem i), ?_, ?_⟩
  · intro p hp
    have he : cs1.getD p.2 ∅ = p.1 := by
      have := List.mem_zipIdx_iff_getElem?.1 hp
      simp [this]
    simp only [he]
    exact hf1 _ _
  · unfold nviThreads Info.nviParallel
    have hpos : (0 : ℝ) < n * Real.logb 2 n := by
      have h2 : (1 : ℝ) < n := by exact_mod_cast (by omega : 1 < n)
      exact mul_pos (by linarith) (Real.logb_pos (by norm_num) h2)
    apply div_lt_div_of_pos_right _ hpos
    have hval : ∀ p ∈ cs1.zipIdx, cs1.getD p.2 ∅ = p.1 := by
      intro p hp
      have := List.mem_zipIdx_iff_getElem?.1 hp
      simp [this]
    apply List.sum_lt_sum
    · intro p hp
      simp only [hval p hp, row_in_order]
      exact hf2 _ _
    · obtain ⟨i, hi, rfl⟩ := List.getElem_of_mem hc1
      have hmem : (cs1[i], i) ∈ cs1.zipIdx := by
        rw [List.mem_zipIdx_iff_getElem?]
        simp [hi]
      refine ⟨(cs1[i], i), hmem, ?_⟩
      simp only [hval _ hmem, row_in_order]
      exact hf3 _ _ rfl

example (mem : Nat → ℝ) : ∃ sched : Nat → List Nat,
    nviThreads mem sched [{0, 1}, {2}] [[{0}], [{1, 2}]] 3 <
      Info.nviParallel mem [{0, 1}, {2}] [{0}, {1, 2}] 3 := by
  obtain ⟨sched, _, h⟩ := C95_measure_violated mem [{0, 1}, {2}] [{0}] [[{1, 2}]] 3 (by omega) {0, 1} (by simp)
    {0} (by simp) ⟨0, by simp⟩ [{1, 2}] (by simp) {1, 2} (by simp) ⟨1, by simp⟩ (by
      intro h
      have := h (show (0 : Nat) ∈ ({0, 1} : Finset Nat) by simp)
      simp at this)
  exact ⟨sched, h⟩

end Verif.Races
