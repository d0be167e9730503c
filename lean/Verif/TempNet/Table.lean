import Verif.TempNet.Props

/-!
# C56: networks from a table of events

The constructor of `ContTempNetwork` with the argument `events_table`
(`src/flowstab/temporal_network.py:107-119, 158-202`).
-/

set_option linter.unusedSectionVars false

namespace Verif.TempNet

variable {K : Type} [Field K] [LinearOrder K] [IsStrictOrderedRing K]

/-! ## Model -/

/-- What is given as `events_table`: a data frame, a path (with what `read_csv` makes of the file;
`none` for a missing, empty or unreadable one), or anything else. -/
inductive EventsArg (K : Type)
  | frame (table : List (Event Nat K))
  | path (read : Option (List (Event Nat K)))
  | other

/-- Exceptions of the constructor. -/
inductive TableErr
  | valueError
  | attributeError
  deriving DecidableEq

/-- `self.events_table` (temporal_network.py:159-182). -/
def eventsTable : EventsArg K → Except TableErr (List (Event Nat K))
  | .frame table => .ok table
  | .path (some table) => .ok table
  | .path none => .error .valueError
  | .other => .error .valueError

/-- `events_table.source_nodes.tolist()` and `events_table.target_nodes.tolist()` on the argument
itself (temporal_network.py:186-187): a string or a path has no such attribute. -/
def argLabels : EventsArg K → Except TableErr (List Nat)
  | .frame table => .ok (allLabels table)
  | _ => .error .attributeError

/-- The constructor with `events_table`, `relabel_nodes` and `node_to_label_dict`
(temporal_network.py:158-202). -/
def fromTable (arg : EventsArg K) (relabel : Bool) (labels : List Nat) : Except TableErr (Net Nat K) :=
  match eventsTable arg with
  | .error e => .error e
  | .ok table =>
    if relabel then
      match argLabels arg with
      | .error e => .error e
      | .ok l => .ok ⟨table, l, (nodeArray table).length⟩
    else .ok ⟨table, labels, (nodeArray table).length⟩

/-! ## Lemmas -/

theorem rowsAt_mem_start {evs : List (Event Nat K)} {e : Event Nat K} (he : e ∈ evs) (sf : Nat → Bool) :
    (e, true) ∈ rowsAt evs sf e.start := by
  unfold rowsAt
  obtain ⟨i, hi, rfl⟩ := List.getElem_of_mem he
  refine List.mem_flatMap.2 ⟨(evs[i], i), ?_, ?_⟩
  · rw [List.mem_zipIdx_iff_getElem?]
    simp [hi]
  · simp only [if_true]
    split <;> simp

theorem foldlM_inRange {n : Nat} (rows : List (Event Nat K × Bool)) {s s' : LapState K}
    (h : rows.foldlM (LapState.rowChecked n) s = .ok s') : ∀ r ∈ rows, r.1.src < n ∧ r.1.tgt < n := by
  induction rows generalizing s with
  | nil => intro r hr; cases hr
  | cons r rest ih =>
    rw [List.foldlM_cons] at h
    intro x hx
    have h1 : r.1.src < n ∧ r.1.tgt < n := by
      by_contra hc
      have : LapState.rowChecked n s r = .error .indexError := by
        unfold LapState.rowChecked; rw [if_neg hc]
      rw [this] at h
      cases h
    have h2 : LapState.rowChecked n s r = .ok (s.row r.1 r.2) := by
      unfold LapState.rowChecked; rw [if_pos h1]
    rw [h2] at h
    rcases List.mem_cons.1 hx with rfl | hx
    · exact h1
    · exact ih h x hx

theorem lapLoop_iff (n : Nat) (evs : List (Event Nat K)) (sf : Nat → Bool) (ts : List K) (s : LapState K) :
    (∃ states, lapLoop n evs sf s ts = .ok states) ↔
      ∀ t ∈ ts, ∀ r ∈ rowsAt evs sf t, r.1.src < n ∧ r.1.tgt < n := by
  induction ts generalizing s with
  | nil =>
    refine ⟨fun _ t ht => ?_, fun _ => ⟨_, rfl⟩⟩
    cases ht
  | cons t ts ih =>
    unfold lapLoop
    constructor
    · rintro ⟨states, h⟩ u hu
      split at h
      · cases h
      next s' h1 =>
      split at h
      · cases h
      next r h2 =>
      rcases List.mem_cons.1 hu with rfl | hu
      · exact foldlM_inRange _ h1
      · exact (ih s').1 ⟨r, h2⟩ u hu
    · intro h
      rw [foldlM_checked n _ (h t List.mem_cons_self) s]
      obtain ⟨r, hr⟩ := (ih ((rowsAt evs sf t).foldl (fun s r => s.row r.1 r.2) s)).2
        fun u hu => h u (List.mem_cons_of_mem _ hu)
      simp only [hr]
      exact ⟨_, rfl⟩

/-- The whole time: the computation succeeds exactly if all nodes exist. -/
theorem computeLaplacians_iff (n : Nat) (evs : List (Event Nat K)) (hne : evs ≠ [])
    (hpos : ∀ e ∈ evs, e.start < e.stop) (sf : Nat → Bool) :
    (∃ L, computeLaplacians n evs sf none none = .ok L) ↔ InRange n evs := by
  have hsorted : (timesOf evs).Pairwise (· < ·) := uniqueSorted_lt _
  have hne' : timesOf evs ≠ [] := by
    obtain ⟨e, he⟩ := List.exists_mem_of_ne_nil _ hne
    exact List.ne_nil_of_mem (start_mem_times he)
  obtain ⟨k, m, hk, hm, hw, hk2, hm2⟩ := window_spec _ hsorted hne' (none : Option K) none
  have hk2 : k = 0 := hk2
  have hm2 : m = (timesOf evs).length - 1 := hm2
  subst hk2
  have hloop : (∃ L, computeLaplacians n evs sf none none = .ok L) ↔
      ∃ states, lapLoop n evs sf LapState.init
        ((timesOf evs).filter fun t => (timesOf evs)[0] ≤ t ∧ t < (timesOf evs)[m]) = .ok states := by
    unfold computeLaplacians
    dsimp only
    rw [hw]
    dsimp only
    have hi : initialState n evs (timesOf evs) 0 = .ok LapState.init := by
      unfold initialState; simp
    rw [hi]
    dsimp only
    constructor
    · rintro ⟨L, h⟩
      split at h
      · cases h
      next st hst => exact ⟨st, hst⟩
    · rintro ⟨st, hst⟩
      rw [hst]
      exact ⟨_, rfl⟩
  rw [hloop, lapLoop_iff]
  constructor
  · intro h e he
    have hs := start_mem_times he
    have hstop : e.stop ∈ timesOf evs := by
      unfold timesOf
      rw [mem_uniqueSorted]
      exact List.mem_append.2 (.inr (List.mem_map.2 ⟨e, he, rfl⟩))
    refine h e.start (List.mem_filter.2 ⟨hs, ?_⟩) (e, true) (rowsAt_mem_start he sf)
    rw [decide_eq_true_eq]
    obtain ⟨i, hi, ei⟩ := List.getElem_of_mem hs
    obtain ⟨j, hj, ej⟩ := List.getElem_of_mem hstop
    refine ⟨?_, ?_⟩
    · rw [← ei]
      exact getElem_le_of_pairwise hsorted _ _ (Nat.zero_le _)
    · refine (hpos e he).trans_le ?_
      rw [← ej]
      exact getElem_le_of_pairwise hsorted _ _ (by omega)
  · intro h t _ r hr
    exact h _ (mem_rowsAt evs sf t r hr)

/-! ## Properties -/

/-- **C56** is violated for paths: with the default `relabel_nodes=True` only data frames are accepted;
a readable file fails with `AttributeError`. -/
theorem C56_path_violated (arg : EventsArg K) (labels : List Nat) :
    ((∃ N, fromTable arg true labels = .ok N) ↔ ∃ table, arg = .frame table) ∧
    (fromTable arg true labels = .error .attributeError ↔ ∃ table, arg = .path (some table)) := by
  rcases arg with table | read | _
  · simp [fromTable, eventsTable, argLabels]
  · cases read <;> simp [fromTable, eventsTable, argLabels]
  · simp [fromTable, eventsTable]

/-- **C56** With `relabel_nodes=False` a readable file is as good as its data frame. -/
theorem C56_path_partial (table : List (Event Nat K)) (labels : List Nat) :
    fromTable (.path (some table)) false labels = fromTable (.frame table) false labels ∧
    ∃ N, fromTable (.frame table) false labels = .ok N ∧ N.events = table ∧ N.labels = labels ∧
      ∀ M, fromTable (.frame table) true labels = .ok M → N.numNodes = M.numNodes := by
  refine ⟨rfl, _, rfl, rfl, rfl, fun M h => ?_⟩
  cases h
  rfl

/-- **C56** is violated for data frames whose nodes are not `0..n-1`, exactly for those: the option
`relabel_nodes` does not relabel them.  The Laplacians of a table of lasting contacts can be
computed if and only if its nodes are `0..n-1`. -/
theorem C56_relabel_violated (table : List (Event Nat K)) (hne : table ≠ []) (hpos : ∀ e ∈ table, e.start < e.stop)
    (relabel : Bool) (labels : List Nat) (sf : Nat → Bool) :
    ∃ N, fromTable (.frame table) relabel labels = .ok N ∧
      ((∃ L, computeLaplacians N.numNodes N.events sf none none = .ok L) ↔
        ∃ n, ∀ i, (∃ e ∈ table, i = e.src ∨ i = e.tgt) ↔ i < n) := by
  obtain ⟨N, hN, h1, h2⟩ : ∃ N, fromTable (.frame table) relabel labels = .ok N ∧ N.events = table ∧
      N.numNodes = (nodeArray table).length := by
    cases relabel <;> exact ⟨_, rfl, rfl, rfl⟩
  refine ⟨N, hN, ?_⟩
  rw [h1, computeLaplacians_iff _ _ hne hpos, h2]
  constructor
  · intro h
    refine ⟨(nodeArray table).length, ?_⟩
    have hsub : nodeArray table ⊆ List.range (nodeArray table).length := by
      intro i hi
      obtain ⟨e, he, hor⟩ := (mem_nodeArray table i).1 hi
      rw [List.mem_range]
      rcases hor with rfl | rfl
      · exact (h e he).1
      · exact (h e he).2
    have hperm : (nodeArray table).Perm (List.range (nodeArray table).length) :=
      (List.subperm_of_subset (nodup_nodeArray table) hsub).perm_of_length_le (by simp)
    intro i
    rw [← mem_nodeArray, hperm.mem_iff, List.mem_range]
  · rintro ⟨n, hn⟩
    have hperm : (nodeArray table).Perm (List.range n) := by
      rw [List.perm_ext_iff_of_nodup (nodup_nodeArray _) List.nodup_range]
      intro i
      rw [mem_nodeArray, List.mem_range, hn i]
    have hl := hperm.length_eq
    rw [List.length_range] at hl
    rw [hl]
    exact fun e he => ⟨(hn _).1 ⟨e, he, .inl rfl⟩, (hn _).1 ⟨e, he, .inr rfl⟩⟩

/-- **C56** for a table whose nodes are `0..n-1` already: nodes, labels and Laplacian input
agree. -/
theorem C56_consecutive_nodes_partial (table : List (Event Nat K)) (n : Nat)
    (h : ∀ i, (∃ e ∈ table, i = e.src ∨ i = e.tgt) ↔ i < n) :
    ∀ labels, ∃ N, fromTable (.frame table) true labels = .ok N ∧ N.events = table ∧ N.numNodes = n ∧ N.labels = List.range n ∧
      InRange n N.events := by
  have hperm : (nodeArray table).Perm (List.range n) := by
    rw [List.perm_ext_iff_of_nodup (nodup_nodeArray _) List.nodup_range]
    intro i
    rw [mem_nodeArray, List.mem_range, h i]
  intro labels
  refine ⟨_, rfl, rfl, ?_, ?_, ?_⟩
  · have := hperm.length_eq
    rwa [List.length_range] at this
  · exact hperm.eq_of_pairwise (le := (· ≤ ·)) (fun a b _ _ => le_antisymm)
      ((uniqueSorted_lt _).imp le_of_lt) (List.pairwise_lt_range.imp le_of_lt)
  · exact fun e he => ⟨(h _).1 ⟨e, he, .inl rfl⟩, (h _).1 ⟨e, he, .inr rfl⟩⟩

/-- Given as columns, the same contacts never fail. -/
theorem C56_columns {L : Type} [LinearOrder L] (evs : List (Event L K)) (hne : evs ≠ [])
    (hpos : ∀ e ∈ evs, e.start < e.stop) (sf : Nat → Bool) :
    ∃ M, computeLaplacians (ofEvents evs).numNodes (ofEvents evs).events sf none none = .ok M := by
  refine (computeLaplacians_iff _ _ ?_ ?_ sf).2 ?_
  · obtain ⟨e, he⟩ := List.exists_mem_of_ne_nil _ hne
    exact List.ne_nil_of_mem ((mem_events evs _).2 ⟨e, he, rfl⟩)
  · intro e he
    obtain ⟨f, hf, rfl⟩ := (mem_events evs e).1 he
    exact hpos f hf
  · intro e he
    have h := (C31_relabelling evs).2.2.2.1
    exact ⟨(h _).1 ⟨e, he, .inl rfl⟩, (h _).1 ⟨e, he, .inr rfl⟩⟩

/-! ## Examples -/

/-- A table that meets the hypotheses and whose nodes are not `0..n-1`. -/
example : ([⟨5, 7, 0, 1⟩] : List (Event Nat ℚ)) ≠ [] ∧ (∀ e ∈ ([⟨5, 7, 0, 1⟩] : List (Event Nat ℚ)), e.start < e.stop) ∧
    ¬ ∃ n, ∀ i, (∃ e ∈ ([⟨5, 7, 0, 1⟩] : List (Event Nat ℚ)), i = e.src ∨ i = e.tgt) ↔ i < n := by
  refine ⟨by simp, by decide +kernel, ?_⟩
  rintro ⟨n, h⟩
  have h5 := (h 5).1 ⟨_, List.mem_cons_self, .inl rfl⟩
  obtain ⟨e, he, h0⟩ := (h 0).2 (by omega)
  rw [List.mem_singleton] at he
  subst he
  simp at h0

example : ∀ i, (∃ e ∈ ([⟨0, 1, 0, 1⟩, ⟨2, 1, 0, 3⟩] : List (Event Nat ℚ)), i = e.src ∨ i = e.tgt) ↔ i < 3 := by
  intro i
  constructor
  · rintro ⟨e, he, h⟩
    simp only [List.mem_cons, List.not_mem_nil, or_false] at he
    rcases he with rfl | rfl <;> rcases h with rfl | rfl <;> decide
  · intro hi
    interval_cases i
    · exact ⟨_, List.mem_cons_self, .inl rfl⟩
    · exact ⟨_, List.mem_cons_self, .inr rfl⟩
    · exact ⟨_, List.mem_cons_of_mem _ List.mem_cons_self, .inl rfl⟩

end Verif.TempNet
