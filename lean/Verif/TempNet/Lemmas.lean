import Verif.TempNet.Spec
import Mathlib.Tactic.Ring
import Mathlib.Tactic.Linarith
import Mathlib.Tactic.FieldSimp
import Mathlib.Algebra.BigOperators.Ring.Finset
import Mathlib.Algebra.Order.BigOperators.Group.Finset

/-! # Lemmas on the event loop -/

set_option linter.dupNamespace false
set_option linter.unusedSectionVars false
set_option linter.unusedSimpArgs false

namespace Verif.TempNet

variable {K : Type} [Field K] [LinearOrder K] [IsStrictOrderedRing K]

/-! ## Sorted lists without repetition -/

section
variable {α : Type} [LinearOrder α]

theorem mem_uniqueSorted (l : List α) (x : α) : x ∈ uniqueSorted l ↔ x ∈ l := by
  simp [uniqueSorted]

theorem uniqueSorted_lt (l : List α) : (uniqueSorted l).Pairwise (· < ·) := by
  have h1 : (l.insertionSort (· ≤ ·)).Pairwise (· ≤ ·) := List.pairwise_insertionSort _ _
  have h2 : (uniqueSorted l).Pairwise (· ≤ ·) := h1.sublist (List.dedup_sublist _)
  have h3 : (uniqueSorted l).Nodup := List.nodup_dedup _
  exact (List.Pairwise.and h2 h3).imp fun h => lt_of_le_of_ne h.1 h.2

theorem uniqueSorted_nodup (l : List α) : (uniqueSorted l).Nodup := List.nodup_dedup _

theorem getElem_lt_of_pairwise {l : List α} (h : l.Pairwise (· < ·)) {i j : Nat}
    (hi : i < l.length) (hj : j < l.length) (hij : i < j) : l[i] < l[j] :=
  List.pairwise_iff_getElem.1 h i j hi hj hij

theorem getElem_le_of_pairwise {l : List α} (h : l.Pairwise (· < ·)) {i j : Nat}
    (hi : i < l.length) (hj : j < l.length) (hij : i ≤ j) : l[i] ≤ l[j] := by
  rcases Nat.lt_or_ge i j with h1 | h1
  · exact (getElem_lt_of_pairwise h hi hj h1).le
  · have : i = j := by omega
    subst this; exact le_refl _

theorem filter_ge_eq_drop (l : List α) (h : l.Pairwise (· < ·)) (k : Nat) (hk : k < l.length) :
    l.filter (fun t => l[k] ≤ t) = l.drop k := by
  have h0 : ∀ p : α → Bool, l.filter p = (l.take k).filter p ++ (l.drop k).filter p := by
    intro p; rw [← List.filter_append, List.take_append_drop]
  rw [h0]
  have h1 : (l.take k).filter (fun t => l[k] ≤ t) = [] := by
    rw [List.filter_eq_nil_iff]
    intro x hx
    obtain ⟨i, hi, rfl⟩ := List.mem_take_iff_getElem.1 hx
    have := getElem_lt_of_pairwise h (i := i) (j := k) (by omega) hk (by omega)
    simpa using this
  have h2 : (l.drop k).filter (fun t => l[k] ≤ t) = l.drop k := by
    rw [List.filter_eq_self]
    intro x hx
    obtain ⟨i, hi, rfl⟩ := List.mem_drop_iff_getElem.1 hx
    have := getElem_le_of_pairwise h (i := k) (j := k + i) hk (by omega) (by omega)
    simpa using this
  rw [h1, h2, List.nil_append]

theorem filter_lt_eq_take (l : List α) (h : l.Pairwise (· < ·)) (k : Nat) (hk : k < l.length) :
    l.filter (fun t => t < l[k]) = l.take k := by
  have h0 : ∀ p : α → Bool, l.filter p = (l.take k).filter p ++ (l.drop k).filter p := by
    intro p; rw [← List.filter_append, List.take_append_drop]
  rw [h0]
  have h1 : (l.take k).filter (fun t => t < l[k]) = l.take k := by
    rw [List.filter_eq_self]
    intro x hx
    obtain ⟨i, hi, rfl⟩ := List.mem_take_iff_getElem.1 hx
    have := getElem_lt_of_pairwise h (i := i) (j := k) (by omega) hk (by omega)
    simpa using this
  have h2 : (l.drop k).filter (fun t => t < l[k]) = [] := by
    rw [List.filter_eq_nil_iff]
    intro x hx
    obtain ⟨i, hi, rfl⟩ := List.mem_drop_iff_getElem.1 hx
    have := getElem_le_of_pairwise h (i := k) (j := k + i) hk (by omega) (by omega)
    simpa using this
  rw [h1, h2, List.append_nil]

theorem filter_window (l : List α) (h : l.Pairwise (· < ·)) (k m : Nat) (hk : k < l.length)
    (hm : m < l.length) :
    l.filter (fun t => l[k] ≤ t ∧ t < l[m]) = (l.take m).drop k := by
  have h1 : l.filter (fun t => l[k] ≤ t ∧ t < l[m]) =
      (l.filter (fun t => t < l[m])).filter (fun t => l[k] ≤ t) := by
    rw [List.filter_filter]
    apply List.filter_congr
    intro x _
    simp
  rw [h1, filter_lt_eq_take l h m hm]
  rcases Nat.lt_or_ge k m with hkm | hkm
  · have hk' : k < (l.take m).length := by simp; omega
    have := filter_ge_eq_drop (l.take m) (h.sublist (List.take_sublist _ _)) k hk'
    simp only [List.getElem_take] at this
    exact this
  · rw [List.drop_eq_nil_iff.2 (by simp; omega), List.filter_eq_nil_iff]
    intro x hx
    obtain ⟨i, hi, rfl⟩ := List.mem_take_iff_getElem.1 hx
    have := getElem_lt_of_pairwise h (i := i) (j := k) (by omega) hk (by omega)
    simpa using this

end

/-! ## Closest time and window -/

theorem foldl_max_spec (l : List K) (x : K) :
    x ≤ l.foldl max x ∧ (∀ y ∈ l, y ≤ l.foldl max x) ∧ (l.foldl max x = x ∨ l.foldl max x ∈ l) := by
  induction l generalizing x with
  | nil => simp
  | cons y r ih =>
    simp only [List.foldl_cons]
    obtain ⟨h1, h2, h3⟩ := ih (max x y)
    refine ⟨(le_max_left _ _).trans h1, ?_, ?_⟩
    · intro z hz
      rcases List.mem_cons.1 hz with rfl | hz
      · exact (le_max_right _ _).trans h1
      · exact h2 z hz
    · rcases h3 with h3 | h3
      · rw [h3]
        rcases max_choice x y with h | h
        · left; exact h
        · right; rw [h]; exact List.mem_cons_self
      · right; exact List.mem_cons_of_mem _ h3

theorem idxOf_lt_get {α : Type} [DecidableEq α] (l : List α) (x : α) (h : x ∈ l) :
    ∃ hk : l.idxOf x < l.length, l[l.idxOf x] = x :=
  ⟨List.idxOf_lt_length_iff.2 h, List.getElem_idxOf _⟩

/-- What the closest-time lookup returns. -/
theorem closestTime_spec (times : List K) (h : times.Pairwise (· < ·)) (hne : times ≠ []) (t : K) :
    ∃ (k : Nat) (hk : k < times.length), closestTime times t = .ok (times[k], k) ∧
      (times[k] ≤ t ∨ k = 0) ∧ ∀ (m : Nat) (hm : m < times.length), times[m] ≤ t → m ≤ k := by
  match times, hne with
  | t0 :: rest, _ =>
    simp only [closestTime]
    generalize hq : (if t ∈ t0 :: rest then t
      else if t ≤ t0 then t0
      else ((t0 :: rest).filter (· ≤ t)).foldl max t0) = q
    have hmem : q ∈ t0 :: rest ∧ (q ≤ t ∨ q = t0) ∧ ∀ u ∈ t0 :: rest, u ≤ t → u ≤ q := by
      subst hq
      split
      · rename_i h1
        exact ⟨h1, .inl (le_refl _), fun u _ hu => hu⟩
      · rename_i h1
        split
        · rename_i h2
          refine ⟨List.mem_cons_self, .inr rfl, fun u _ hu => ?_⟩
          exact hu.trans h2
        · rename_i h2
          obtain ⟨a, b, c⟩ := foldl_max_spec ((t0 :: rest).filter (· ≤ t)) t0
          refine ⟨?_, ?_, ?_⟩
          · rcases c with c | c
            · rw [c]; exact List.mem_cons_self
            · exact List.mem_of_mem_filter c
          · rcases c with c | c
            · right; exact c
            · left; simpa using (List.mem_filter.1 c).2
          · intro u hu hut
            exact b u (List.mem_filter.2 ⟨hu, by simpa using hut⟩)
    obtain ⟨hk, hget⟩ := idxOf_lt_get (t0 :: rest) q hmem.1
    refine ⟨(t0 :: rest).idxOf q, hk, by rw [hget], ?_, ?_⟩
    · rcases hmem.2.1 with h1 | h1
      · left; rw [hget]; exact h1
      · right; rw [h1]; simp
    · intro m hm hmt
      have h1 := hmem.2.2 _ (List.getElem_mem hm) hmt
      by_contra hc
      have h2 := getElem_lt_of_pairwise h hk hm (by omega)
      rw [hget] at h2
      exact absurd h1 (not_le.2 h2)

theorem window_spec (times : List K) (h : times.Pairwise (· < ·)) (hne : times ≠ [])
    (tStart tStop : Option K) :
    ∃ (k m : Nat) (hk : k < times.length) (hm : m < times.length),
      window times tStart tStop = .ok ((times[k], k), (times[m], m)) ∧
      Resolves times k 0 tStart ∧ Resolves times m (times.length - 1) tStop := by
  match times, hne with
  | t0 :: rest, hne =>
    obtain ⟨k, hk, hk1, hk2⟩ : ∃ (k : Nat) (hk : k < (t0 :: rest).length),
        resolve (t0 :: rest) (t0, 0) tStart = .ok ((t0 :: rest)[k], k) ∧ Resolves (t0 :: rest) k 0 tStart := by
      match tStart with
      | none => exact ⟨0, by simp, rfl, rfl⟩
      | some t =>
        obtain ⟨k, hk, h1, h2, h3⟩ := closestTime_spec (t0 :: rest) h hne t
        exact ⟨k, hk, h1, hk, h2, h3⟩
    obtain ⟨m, hm, hm1, hm2⟩ : ∃ (m : Nat) (hm : m < (t0 :: rest).length),
        resolve (t0 :: rest) ((t0 :: rest).getLast (by simp), rest.length) tStop = .ok ((t0 :: rest)[m], m) ∧ Resolves (t0 :: rest) m ((t0 :: rest).length - 1) tStop := by
      match tStop with
      | none =>
        refine ⟨rest.length, by simp, ?_, by simp [Resolves]⟩
        simp [resolve, List.getLast_eq_getElem]
      | some t =>
        obtain ⟨k, hk, h1, h2, h3⟩ := closestTime_spec (t0 :: rest) h hne t
        exact ⟨k, hk, h1, hk, h2, h3⟩
    refine ⟨k, m, hk, hm, ?_, hk2, hm2⟩
    simp only [window]
    rw [hk1]
    dsimp only
    rw [hm1]

/-! ## The state of the event loop -/

/-- Consistency of the matrices on the nodes `0..n-1`. -/
structure Ok (n : Nat) (s : LapState K) : Prop where
  val : ∀ i j, s.A i j = 0 ∨ s.A i j = 1
  symm : ∀ i j, s.A i j = s.A j i
  diag : ∀ i, s.A i i = 0
  supp : ∀ i j, s.A i j ≠ 0 → j < n
  deg : ∀ i, s.deg i = ∑ j ∈ Finset.range n, s.A i j
  loop : ∀ i, s.S i = if s.deg i = 0 then 1 else 0
  inv : ∀ i, s.Dm1 i = if s.deg i = 0 then 1 else 1 / s.deg i

theorem ok_init (n : Nat) : Ok n (LapState.init : LapState K) :=
  ⟨fun _ _ => .inl rfl, fun _ _ => rfl, fun _ => rfl, fun _ _ h => absurd rfl h,
    fun _ => by simp [LapState.init], fun _ => by simp [LapState.init],
    fun _ => by simp [LapState.init]⟩

theorem sum_upd (n j : Nat) (hj : j < n) (f : Nat → K) (v : K) :
    ∑ b ∈ Finset.range n, (if b = j then v else f b) = ∑ b ∈ Finset.range n, f b - f j + v := by
  have hm : j ∈ Finset.range n := Finset.mem_range.2 hj
  rw [← Finset.add_sum_erase _ _ hm, ← Finset.add_sum_erase _ (fun b => f b) hm]
  have : ∑ b ∈ (Finset.range n).erase j, (if b = j then v else f b) =
      ∑ b ∈ (Finset.range n).erase j, f b :=
    Finset.sum_congr rfl fun b hb => by rw [if_neg (Finset.ne_of_mem_erase hb)]
  rw [this, if_pos rfl]
  ring

/-- Consistency except for the self-loops and inverse degrees of a set of nodes. -/
structure Ok' (n : Nat) (bad : Nat → Prop) (s : LapState K) : Prop where
  val : ∀ i j, s.A i j = 0 ∨ s.A i j = 1
  symm : ∀ i j, s.A i j = s.A j i
  diag : ∀ i, s.A i i = 0
  supp : ∀ i j, s.A i j ≠ 0 → j < n
  deg : ∀ i, s.deg i = ∑ j ∈ Finset.range n, s.A i j
  loop : ∀ i, ¬ bad i → s.S i = if s.deg i = 0 then 1 else 0
  inv : ∀ i, ¬ bad i → s.Dm1 i = if s.deg i = 0 then 1 else 1 / s.deg i

theorem Ok.to' {n : Nat} {s : LapState K} (h : Ok n s) (bad : Nat → Prop) : Ok' n bad s :=
  ⟨h.val, h.symm, h.diag, h.supp, h.deg, fun i _ => h.loop i, fun i _ => h.inv i⟩

theorem A_refresh (s : LapState K) (i : Nat) : (s.refresh i).A = s.A := by
  unfold LapState.refresh; split <;> rfl

theorem deg_refresh (s : LapState K) (i : Nat) : (s.refresh i).deg = s.deg := by
  unfold LapState.refresh; split <;> rfl

theorem ok_refresh {n : Nat} {bad : Nat → Prop} {s : LapState K} (h : Ok' n bad s) (i : Nat) :
    Ok' n (fun a => bad a ∧ a ≠ i) (s.refresh i) := by
  refine ⟨?_, ?_, ?_, ?_, ?_, ?_, ?_⟩
  · rw [A_refresh]; exact h.val
  · rw [A_refresh]; exact h.symm
  · rw [A_refresh]; exact h.diag
  · rw [A_refresh]; exact h.supp
  · rw [A_refresh, deg_refresh]; exact h.deg
  · intro a ha
    rw [deg_refresh]
    unfold LapState.refresh
    by_cases hai : a = i
    · subst hai
      split
      · rename_i h0; simp [h0]
      · rename_i h0; simp [h0]
    · have hb : ¬ bad a := fun hb => ha ⟨hb, hai⟩
      split <;> simp [hai, h.loop a hb]
  · intro a ha
    rw [deg_refresh]
    unfold LapState.refresh
    by_cases hai : a = i
    · subst hai
      split
      · rename_i h0; simp [h0]
      · rename_i h0; simp [h0]
    · have hb : ¬ bad a := fun hb => ha ⟨hb, hai⟩
      split <;> simp [hai, h.inv a hb]

/-- Assigning a pair of distinct nodes and adjusting the two degrees. -/
theorem ok_setPair {n : Nat} {s : LapState K} (h : Ok n s) (i j : Nat) (hi : i < n) (hj : j < n)
    (hij : i ≠ j) (v d : K) (hv : v = 0 ∨ v = 1) (hd : d = v - s.A i j) :
    Ok' n (fun a => a = i ∨ a = j)
      { s with A := setPair s.A i j v, deg := addAt (addAt s.deg i d) j d } := by
  have hset : ∀ a b, setPair s.A i j v a b = if (a = i ∧ b = j) ∨ (a = j ∧ b = i) then v else s.A a b := by
    intro a b
    unfold setPair
    by_cases h1 : a = j ∧ b = i
    · rw [if_pos h1, if_pos (.inr h1)]
    · by_cases h2 : a = i ∧ b = j
      · rw [if_neg h1, if_pos h2, if_pos (.inl h2)]
      · rw [if_neg h1, if_neg h2, if_neg (by tauto)]
  refine ⟨?_, ?_, ?_, ?_, ?_, ?_, ?_⟩
  · intro a b
    dsimp only
    rw [hset]
    split
    · exact hv
    · exact h.val a b
  · intro a b
    dsimp only
    rw [hset, hset, h.symm a b]
    by_cases hc : (a = i ∧ b = j) ∨ (a = j ∧ b = i)
    · rw [if_pos hc, if_pos (by tauto)]
    · rw [if_neg hc, if_neg (by tauto)]
  · intro a
    dsimp only
    rw [hset, if_neg (by rintro (⟨h1, h2⟩ | ⟨h1, h2⟩) <;> exact hij (by omega))]
    exact h.diag a
  · intro a b hab
    dsimp only at hab
    rw [hset] at hab
    split at hab
    · rename_i hc
      rcases hc with ⟨_, rfl⟩ | ⟨_, rfl⟩ <;> assumption
    · exact h.supp a b hab
  · intro a
    dsimp only
    by_cases hai : a = i
    · subst hai
      have h1 : ∀ b, setPair s.A a j v a b = if b = j then v else s.A a b := by
        intro b
        rw [hset]
        by_cases hb : b = j
        · rw [if_pos (.inl ⟨rfl, hb⟩), if_pos hb]
        · rw [if_neg (by rintro (⟨_, h2⟩ | ⟨h1, _⟩); exact hb h2; exact hij h1), if_neg hb]
      rw [Finset.sum_congr rfl fun b _ => h1 b, sum_upd n j hj, ← h.deg a, hd]
      unfold addAt
      rw [if_neg hij, if_pos rfl]
      ring
    · by_cases haj : a = j
      · subst haj
        have h1 : ∀ b, setPair s.A i a v a b = if b = i then v else s.A a b := by
          intro b
          rw [hset]
          by_cases hb : b = i
          · rw [if_pos (.inr ⟨rfl, hb⟩), if_pos hb]
          · rw [if_neg (by rintro (⟨h1, _⟩ | ⟨_, h2⟩); exact hai h1; exact hb h2), if_neg hb]
        rw [Finset.sum_congr rfl fun b _ => h1 b, sum_upd n i hi, ← h.deg a, hd, h.symm i a]
        unfold addAt
        rw [if_pos rfl, if_neg hai]
        ring
      · have h1 : ∀ b, setPair s.A i j v a b = s.A a b := by
          intro b
          rw [hset, if_neg (by rintro (⟨h1, _⟩ | ⟨h1, _⟩); exact hai h1; exact haj h1)]
        rw [Finset.sum_congr rfl fun b _ => h1 b, ← h.deg a]
        unfold addAt
        rw [if_neg haj, if_neg hai]
  · intro a ha
    dsimp only
    have h1 : a ≠ i := fun hc => ha (.inl hc)
    have h2 : a ≠ j := fun hc => ha (.inr hc)
    have h3 : addAt (addAt s.deg i d) j d a = s.deg a := by
      unfold addAt; rw [if_neg h2, if_neg h1]
    show s.S a = if addAt (addAt s.deg i d) j d a = 0 then 1 else 0
    rw [h3]
    exact h.loop a
  · intro a ha
    dsimp only
    have h1 : a ≠ i := fun hc => ha (.inl hc)
    have h2 : a ≠ j := fun hc => ha (.inr hc)
    have h3 : addAt (addAt s.deg i d) j d a = s.deg a := by
      unfold addAt; rw [if_neg h2, if_neg h1]
    show s.Dm1 a = if addAt (addAt s.deg i d) j d a = 0 then 1 else 1 / addAt (addAt s.deg i d) j d a
    rw [h3]
    exact h.inv a

theorem setPair_eq (A : Nat → Nat → K) (e : Event Nat K) (v : K) (a b : Nat) [Decidable (e.Pair a b)] :
    setPair A e.src e.tgt v a b = if e.Pair a b then v else A a b := by
  unfold setPair Event.Pair at *
  by_cases h1 : a = e.tgt ∧ b = e.src
  · rw [if_pos h1, if_pos (.inr ⟨h1.2.symm, h1.1.symm⟩)]
  · by_cases h2 : a = e.src ∧ b = e.tgt
    · rw [if_neg h1, if_pos h2, if_pos (.inl ⟨h2.1.symm, h2.2.symm⟩)]
    · rw [if_neg h1, if_neg h2, if_neg]
      rintro (⟨h3, h4⟩ | ⟨h3, h4⟩)
      · exact h2 ⟨h3.symm, h4.symm⟩
      · exact h1 ⟨h4.symm, h3.symm⟩

open Classical in
/-- One row keeps the matrices consistent and changes the pair it names. -/
theorem row_spec {n : Nat} {s : LapState K} (h : Ok n s) (e : Event Nat K) (isStart : Bool)
    (hs : e.src < n) (ht : e.tgt < n) (hne : e.src ≠ e.tgt) :
    Ok n (s.row e isStart) ∧ ∀ a b, (s.row e isStart).A a b =
      if e.Pair a b then (if isStart then 1 else 0) else s.A a b := by
  have key : ∃ s' : LapState K, s.row e isStart = (s'.refresh e.src).refresh e.tgt ∧
      Ok' n (fun a => a = e.src ∨ a = e.tgt) s' ∧ ∀ a b, s'.A a b =
        if e.Pair a b then (if isStart then 1 else 0) else s.A a b := by
    refine ⟨if isStart then s.connect e.src e.tgt else s.disconnect e.src e.tgt, rfl, ?_, ?_⟩
    · cases isStart with
      | true =>
        simp only [if_true]
        unfold LapState.connect
        split
        · rename_i h1
          have h0 : s.A e.src e.tgt = 0 := (h.val _ _).resolve_right h1
          exact ok_setPair h e.src e.tgt hs ht hne 1 1 (.inr rfl) (by rw [h0, sub_zero])
        · exact h.to' _
      | false =>
        simp only [Bool.false_eq_true, if_false]
        unfold LapState.disconnect
        split
        · rename_i h1
          have h0 : s.A e.src e.tgt = 1 := (h.val _ _).resolve_left h1.ne'
          exact ok_setPair h e.src e.tgt hs ht hne 0 (-1) (.inl rfl) (by rw [h0, zero_sub])
        · exact h.to' _
    · intro a b
      cases isStart with
      | true =>
        simp only [if_true]
        unfold LapState.connect
        split
        · exact setPair_eq s.A e 1 a b
        · rename_i h1
          rw [not_not] at h1
          split
          · rename_i hp
            rcases hp with ⟨rfl, rfl⟩ | ⟨rfl, rfl⟩
            · exact h1
            · rw [h.symm]; exact h1
          · rfl
      | false =>
        simp only [Bool.false_eq_true, if_false]
        unfold LapState.disconnect
        split
        · exact setPair_eq s.A e 0 a b
        · rename_i h1
          have h0 : s.A e.src e.tgt = 0 := by
            rcases h.val e.src e.tgt with h2 | h2
            · exact h2
            · rw [h2] at h1; exact absurd zero_lt_one h1
          split
          · rename_i hp
            rcases hp with ⟨rfl, rfl⟩ | ⟨rfl, rfl⟩
            · exact h0
            · rw [h.symm]; exact h0
          · rfl
  obtain ⟨s', h1, h2, h3⟩ := key
  have h4 := ok_refresh (ok_refresh h2 e.src) e.tgt
  rw [h1]
  refine ⟨⟨h4.val, h4.symm, h4.diag, h4.supp, h4.deg, fun i => h4.loop i ?_, fun i => h4.inv i ?_⟩, ?_⟩
  · rintro ⟨⟨h5 | h5, h6⟩, h7⟩
    · exact h6 h5
    · exact h7 h5
  · rintro ⟨⟨h5 | h5, h6⟩, h7⟩
    · exact h6 h5
    · exact h7 h5
  · intro a b
    rw [A_refresh, A_refresh]
    exact h3 a b

theorem foldlM_checked (n : Nat) (rows : List (Event Nat K × Bool))
    (h : ∀ r ∈ rows, r.1.src < n ∧ r.1.tgt < n) (s : LapState K) :
    rows.foldlM (LapState.rowChecked n) s = .ok (rows.foldl (fun s r => s.row r.1 r.2) s) := by
  induction rows generalizing s with
  | nil => rfl
  | cons r rest ih =>
    rw [List.foldlM_cons, List.foldl_cons]
    have h1 : LapState.rowChecked n s r = .ok (s.row r.1 r.2) := by
      unfold LapState.rowChecked; rw [if_pos (h r List.mem_cons_self)]
    rw [h1]
    exact ih (fun r' hr => h r' (List.mem_cons_of_mem _ hr)) _

/-- Any sequence of rows keeps the matrices consistent. -/
theorem ok_foldl {n : Nat} (rows : List (Event Nat K × Bool))
    (h : ∀ r ∈ rows, r.1.src < n ∧ r.1.tgt < n) (hne : ∀ r ∈ rows, r.1.src ≠ r.1.tgt)
    (s : LapState K) (hs : Ok n s) : Ok n (rows.foldl (fun s r => s.row r.1 r.2) s) := by
  induction rows generalizing s with
  | nil => exact hs
  | cons r rest ih =>
    rw [List.foldl_cons]
    have h0 := h r List.mem_cons_self
    exact ih (fun r' hr => h r' (List.mem_cons_of_mem _ hr))
      (fun r' hr => hne r' (List.mem_cons_of_mem _ hr)) _
      (row_spec hs r.1 r.2 h0.1 h0.2 (hne r List.mem_cons_self)).1

theorem mem_rowsAt (evs : List (Event Nat K)) (sf : Nat → Bool) (t : K) (r : Event Nat K × Bool)
    (h : r ∈ rowsAt evs sf t) : r.1 ∈ evs := by
  unfold rowsAt at h
  rw [List.mem_flatMap] at h
  obtain ⟨⟨e, id⟩, h1, h2⟩ := h
  have h3 : e ∈ evs := (List.mem_zipIdx' h1).2 ▸ List.getElem_mem _
  dsimp only at h2
  have h4 : r ∈ (if e.start = t then [(e, true)] else []) ++
      (if e.stop = t then [(e, false)] else []) := by
    split at h2
    · exact h2
    · rw [List.mem_append] at h2 ⊢; exact h2.symm
  rw [List.mem_append] at h4
  rcases h4 with h4 | h4 <;> split at h4 <;> simp at h4 <;> rw [h4] <;> exact h3

end Verif.TempNet
