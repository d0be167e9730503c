import Verif.Logs.Model

/-!
# Logging: property C116
-/

namespace Verif.Logs

/-! ## Handlers of the package -/

/-- The five names and the numbers Python's `logging` gives them. -/
def levels : List (String × Nat) :=
  [("DEBUG", 10), ("INFO", 20), ("WARNING", 30), ("ERROR", 40), ("CRITICAL", 50)]

theorem levelDict_levels {name : String} {l : Nat} (h : (name, l) ∈ levels) :
    levelDict name = some l ∧ l ≠ 0 := by
  simp only [levels, List.mem_cons, Prod.mk.injEq, List.not_mem_nil, or_false] at h
  rcases h with ⟨rfl, rfl⟩ | ⟨rfl, rfl⟩ | ⟨rfl, rfl⟩ | ⟨rfl, rfl⟩ | ⟨rfl, rfl⟩ <;> decide

/-- The level that the package's handler has after a sequence of events: that of the last
`set_log_level` with a known name, INFO = 20 if there was none. -/
def handlerLevel (es : List Event) : Nat :=
  es.foldl (fun l e => match e with
    | .setLevel name => (levelDict name).getD l
    | _ => l) 20

theorem handlerLevel_snoc (es : List Event) (e : Event) :
    handlerLevel (es ++ [e]) = match e with
      | .setLevel name => (levelDict name).getD (handlerLevel es)
      | _ => handlerLevel es := by
  unfold handlerLevel; rw [List.foldl_append]; rfl

theorem run_snoc (rl : Nat) (root : List Nat) (es : List Event) (e : Event) :
    run rl root (es ++ [e]) = step (run rl root es) e := by
  unfold run; rw [List.foldl_append]; rfl

theorem induct {P : List Event → Prop} (h0 : P []) (h1 : ∀ es e, P es → P (es ++ [e])) :
    ∀ es, P es := by
  intro es
  have : ∀ (r : List Event), P r.reverse := by
    intro r
    induction r with
    | nil => exact h0
    | cons e r ih => rw [List.reverse_cons]; exact h1 _ _ ih
  have h := this es.reverse
  rwa [List.reverse_reverse] at h

/-- The package has one handler if the root logger had none at the import, and none
otherwise; a filter is added by every set-up. -/
theorem run_inv (rl : Nat) (root : List Nat) : ∀ es : List Event,
    (run rl root es).own = (if root = [] then [handlerLevel es] else []) ∧
    (run rl root es).hasHandlers = true ∧ 1 ≤ (run rl root es).filters := by
  apply induct
  · unfold run imported setupLogger fresh LogState.hasHandlers
    cases root with
    | nil => simp [handlerLevel]
    | cons r rs => simp
  · intro es e ih
    obtain ⟨h1, h2, h3⟩ := ih
    rw [run_snoc, handlerLevel_snoc]
    generalize run rl root es = s at h1 h2 h3 ⊢
    cases e with
    | setup l =>
      simp only [step, setupLogger]
      have : (LogState.mk l (s.filters + 1) s.own s.rootLevel s.root).hasHandlers = true := h2
      simp only [this]
      exact ⟨h1, h2, by simp⟩
    | setLevel name =>
      simp only [step, setLogLevel]
      cases hn : levelDict name with
      | none => exact ⟨by simpa using h1, h2, h3⟩
      | some l =>
        refine ⟨?_, ?_, h3⟩
        · simp only [h1]
          split <;> simp
        · revert h2
          unfold LogState.hasHandlers
          simp
    | rootHandler l =>
      refine ⟨h1, ?_, h3⟩
      simp [step, LogState.hasHandlers]
    | rootLevel l => exact ⟨h1, h2, h3⟩

/-- **C116** (`set_log_level`).  After any history, `set_log_level` with one of the five
names succeeds; from then on the package's handler writes a message exactly when its level
is at least the chosen one, provided that the root logger had no handler when the package
was imported; and if the root logger has none now either, every such message is written
exactly once and no other message at all. -/
theorem C116_set_log_level (rl : Nat) (es : List Event) (name : String) (l : Nat)
    (hn : (name, l) ∈ levels) :
    let s := (setLogLevel name (run rl [] es)).1
    (setLogLevel name (run rl [] es)).2 = none ∧
    ∀ m, ownLines s m = (if l ≤ m then 1 else 0) ∧
      (s.root = [] → lines s m = if l ≤ m then 1 else 0) := by
  obtain ⟨h1, _, _⟩ := run_inv rl [] es
  obtain ⟨hn, hl⟩ := levelDict_levels hn
  simp only [setLogLevel, hn]
  refine ⟨trivial, ?_⟩
  intro m
  simp only [if_true] at h1
  unfold ownLines lines LogState.effective LogState.hasHandlers
  simp only [h1, ne_eq, hl, not_false_eq_true, if_true, List.map_cons, List.map_nil]
  refine ⟨?_, ?_⟩
  · by_cases h : l ≤ m <;> simp [h]
  · intro hr
    simp only [hr]
    by_cases h : l ≤ m <;> simp [h]

/-- **C116** (unknown names).  Any other name raises `ValueError` and changes nothing. -/
theorem C116_unknown_name (s : LogState) (name : String)
    (h : name ≠ "DEBUG" ∧ name ≠ "INFO" ∧ name ≠ "WARNING" ∧ name ≠ "ERROR" ∧
      name ≠ "CRITICAL") :
    setLogLevel name s = (s, some .valueError) := by
  obtain ⟨h1, h2, h3, h4, h5⟩ := h
  simp [setLogLevel, levelDict, h1, h2, h3, h4, h5]

/-- **C116** (when a message is shown).  After any history the package's handler writes a
message exactly when the level of the message is at least the effective level of the logger
and at least the level of the last successful `set_log_level` (INFO if there was none):
repeated set-up never adds a second handler. -/
theorem C116_shown_iff (rl : Nat) (es : List Event) (m : Nat) :
    ownLines (run rl [] es) m =
      if (run rl [] es).effective ≤ m ∧ handlerLevel es ≤ m then 1 else 0 := by
  obtain ⟨h1, _, _⟩ := run_inv rl [] es
  simp only [if_true] at h1
  unfold ownLines
  rw [h1]
  by_cases h : (run rl [] es).effective ≤ m <;> by_cases h' : handlerLevel es ≤ m <;>
    simp [h, h']

theorem handlerLevel_setups : ∀ es : List Event, (∀ e ∈ es, ∀ name, e ≠ .setLevel name) →
    handlerLevel es = 20 := by
  apply induct
  · intro _; rfl
  · intro es e ih h
    rw [handlerLevel_snoc]
    have h0 := ih fun e' he' => h e' (List.mem_append_left _ he')
    cases e with
    | setLevel name => exact absurd rfl (h _ (List.mem_append_right _ List.mem_cons_self) name)
    | setup l => exact h0
    | rootHandler l => exact h0
    | rootLevel l => exact h0

/-- **C116** is violated for `setup_logger`: called after the import with a level below INFO
it does not show any message below INFO, because the handler created at the import keeps its
level; whatever the history, unless `set_log_level` is called. -/
theorem C116_setup_violated (rl : Nat) (es : List Event)
    (hes : ∀ e ∈ es, ∀ name, e ≠ .setLevel name) (l m : Nat) (hl : 1 ≤ l) (hlm : l ≤ m)
    (hm : m < 20) :
    (run rl [] (es ++ [.setup l])).effective ≤ m ∧
    ownLines (run rl [] (es ++ [.setup l])) m = 0 := by
  have heff : (run rl [] (es ++ [.setup l])).effective = l := by
    rw [run_snoc]
    have : (step (run rl [] es) (.setup l)).level = l := by
      simp only [step, setupLogger]; split <;> rfl
    unfold LogState.effective
    rw [this, if_pos (by omega)]
  refine ⟨by omega, ?_⟩
  rw [C116_shown_iff, handlerLevel_setups _ (by
    intro e he name
    rcases List.mem_append.1 he with h | h
    · exact hes e h name
    · rw [List.mem_singleton.1 h]; intro h'; cases h')]
  rw [if_neg (by omega)]

theorem root_kept (rl r : Nat) (root : List Nat) : ∀ es : List Event,
    (run rl (r :: root) es).root ≠ [] := by
  apply induct
  · simp [run, imported, setupLogger, fresh, LogState.hasHandlers]
  · intro es e ih
    rw [run_snoc]
    cases e with
    | setup l => simp only [step, setupLogger]; split <;> exact ih
    | setLevel name => simp only [step, setLogLevel]; split <;> exact ih
    | rootHandler l => simp [step]
    | rootLevel l => exact ih

/-- **C116** is violated when the root logger already had a handler at the import: the
package then never has a handler of its own, and after `set_log_level` a message is shown
only by handlers of the root logger whose level allows it. -/
theorem C116_configured_root_violated (rl r : Nat) (root : List Nat) (es : List Event)
    (name : String) (l : Nat) (hn : (name, l) ∈ levels) (m : Nat) :
    let s := (setLogLevel name (run rl (r :: root) es)).1
    ownLines s m = 0 ∧ ((∀ a ∈ s.root, m < a) → lines s m = 0) := by
  obtain ⟨h1, _, _⟩ := run_inv rl (r :: root) es
  obtain ⟨hn, _⟩ := levelDict_levels hn
  simp only [setLogLevel, hn]
  simp only [List.cons_ne_nil, if_false] at h1
  refine ⟨by unfold ownLines; simp [h1], ?_⟩
  intro hall
  have hf : ((run rl (r :: root) es).root.filter fun a => decide (a ≤ m)) = [] := by
    rw [List.filter_eq_nil_iff]
    intro a ha
    have := hall a ha
    simp; omega
  have hne := root_kept rl r root es
  unfold lines LogState.hasHandlers
  simp [h1, hf, hne]

/-- **C116** (handlers added later).  If the application adds a handler to the root logger
after the import, a message that both allow is written twice. -/
theorem C116_written_twice (rl r m : Nat) (name : String) (l : Nat)
    (hn : (name, l) ∈ levels) (hlm : l ≤ m) (hrm : r ≤ m) :
    lines (run rl [] [.rootHandler r, .setLevel name]) m = 2 := by
  obtain ⟨hn, hl⟩ := levelDict_levels hn
  simp [run, imported, fresh, setupLogger, LogState.hasHandlers, step, setLogLevel, hn, lines,
    LogState.effective, hl, hlm, hrm]

/-! ## Paths -/

theorem split_ne_nil (sep : Char) (p : List Char) : split sep p ≠ [] := by
  cases p with
  | nil => simp [split]
  | cons c cs =>
    unfold split
    split
    · simp
    · split <;> simp

theorem split_noSep (sep : Char) : ∀ (p : List Char), ∀ q ∈ split sep p, sep ∉ q
  | [] => by simp [split]
  | c :: cs => by
    have ih := split_noSep sep cs
    unfold split
    split
    · intro q hq
      rcases List.mem_cons.1 hq with rfl | h
      · simp
      · exact ih q h
    · rename_i hc
      cases hs : split sep cs with
      | nil => exact absurd hs (split_ne_nil sep cs)
      | cons p ps =>
        rw [hs] at ih
        intro q hq
        simp only [List.mem_cons] at hq
        rcases hq with rfl | h
        · intro hmem
          rcases List.mem_cons.1 hmem with h | h
          · exact hc h.symm
          · exact ih p List.mem_cons_self h
        · exact ih q (List.mem_cons_of_mem _ h)

theorem split_append (sep : Char) : ∀ (q : List Char), sep ∉ q → ∀ r,
    split sep (q ++ sep :: r) = q :: split sep r
  | [], _, r => by simp [split]
  | c :: cs, h, r => by
    have hc : c ≠ sep := fun hh => h (by rw [hh]; exact List.mem_cons_self)
    have ih := split_append sep cs (fun hh => h (List.mem_cons_of_mem _ hh)) r
    rw [List.cons_append, split, if_neg hc, ih]

theorem split_single (sep : Char) : ∀ (q : List Char), sep ∉ q → split sep q = [q]
  | [], _ => rfl
  | c :: cs, h => by
    have hc : c ≠ sep := fun hh => h (by rw [hh]; exact List.mem_cons_self)
    have ih := split_single sep cs (fun hh => h (List.mem_cons_of_mem _ hh))
    rw [split, if_neg hc, ih]

theorem split_join (sep : Char) : ∀ (ps : List (List Char)), ps ≠ [] → (∀ q ∈ ps, sep ∉ q) →
    split sep (join sep ps) = ps
  | [], h, _ => absurd rfl h
  | [q], _, h => by rw [join]; exact split_single sep q (h q List.mem_cons_self)
  | q :: r :: ps, _, h => by
    rw [join, split_append sep q (h q List.mem_cons_self),
      split_join sep (r :: ps) (by simp) (fun x hx => h x (List.mem_cons_of_mem _ hx))]

theorem split_shorten (sep : Char) (p : List Char) :
    split sep (shorten sep p) = (split sep p).drop ((split sep p).length - 2) := by
  unfold shorten
  split
  · rename_i h
    apply split_join
    · intro hn
      have := congrArg List.length hn
      rw [List.length_drop] at this
      simp at this; omega
    · intro q hq
      exact split_noSep sep p q (List.mem_of_mem_drop hq)
  · rename_i h
    have : (split sep p).length - 2 = 0 := by omega
    rw [this, List.drop_zero]

theorem shorten_idem (sep : Char) (p : List Char) :
    shorten sep (shorten sep p) = shorten sep p := by
  have h : ¬ 2 < (split sep (shorten sep p)).length := by
    rw [split_shorten, List.length_drop]; omega
  rw [shorten, if_neg h]

/-- **C116** (paths).  After the import and any history, in which every set-up adds one more
filter, the handlers see the last two parts of the path of the file that logged the message
(the path itself if it has no more than two parts), as with a single filter. -/
theorem C116_paths (rl : Nat) (root : List Nat) (es : List Event) (sep : Char) (p : List Char) :
    split sep (shownPath sep (run rl root es) p) =
      (split sep p).drop ((split sep p).length - 2) ∧
    shownPath sep (run rl root es) p = shorten sep p := by
  obtain ⟨_, _, h⟩ := run_inv rl root es
  have key : ∀ n : Nat, (List.range (n + 1)).foldl (fun p _ => shorten sep p) p = shorten sep p := by
    intro n
    induction n with
    | zero => rfl
    | succ n ih => rw [List.range_succ, List.foldl_append, ih]; exact shorten_idem sep p
  have h2 : shownPath sep (run rl root es) p = shorten sep p := by
    unfold shownPath
    obtain ⟨n, hn⟩ : ∃ n, (run rl root es).filters = n + 1 :=
      ⟨(run rl root es).filters - 1, by omega⟩
    rw [hn, key]
  exact ⟨by rw [h2, split_shorten], h2⟩

/-! ## Cases that meet the hypotheses -/

/-- A history with two set-ups and a level change; DEBUG messages of level 10 appear only
after `set_log_level("DEBUG")`. -/
example : ("DEBUG", 10) ∈ levels ∧
    lines (run 30 [] [.setup 10]) 10 = 0 ∧
    lines (run 30 [] [.setup 10, .setLevel "DEBUG"]) 10 = 1 ∧
    lines (run 30 [] [.setup 10, .rootHandler 0, .setLevel "DEBUG"]) 10 = 2 ∧
    lines (run 30 [20] [.setLevel "DEBUG"]) 10 = 0 ∧
    shownPath '/' (run 30 [] [.setup 10]) "/home/u/flowstab/logger.py".toList =
      "flowstab/logger.py".toList := by decide +kernel

example : ∀ e ∈ [Event.setup 10, .rootLevel 50], ∀ name, e ≠ .setLevel name := by simp

end Verif.Logs
