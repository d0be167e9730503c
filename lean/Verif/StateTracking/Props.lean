import Verif.StateTracking.Lemmas
import Mathlib.Data.List.Induction

/-!
# Properties C01-C05: state tracking

All theorems hold for every class description, every setter code, every step body
and every instance state `w`; the statements about histories quantify over every
finite list of user actions.
-/

namespace Verif.StateTracking

variable {σ V E : Type}

/-! ## A concrete class used to show that the hypotheses can be met

It is the example of the module documentation (state_tracking.py:18-43). -/

/-- The class `MyAnalysis` of state_tracking.py:23-43. -/
def demo : ClassDesc where
  states := [0, 1, 2]
  items := [⟨"data", .prop 1 true⟩, ⟨"do_step_1", .step (some 0) 1⟩,
            ⟨"do_step_2", .step (some 1) 2⟩]

/-- Its setter stores the value; assigning 13 raises, to have a failing setter. -/
def demoCode : Code (Option Nat) Nat String where
  setter _ v o := if v = some 13 then (some "unlucky", o) else (none, v)

/-- A fresh instance of the demo class. -/
def demoFresh : World (Option Nat) Nat :=
  { obj := none, current := 0, flags := fun _ => false, log := [] }

/-- The demo instance after `data = 5; do_step_1()`. -/
def demoReady : World (Option Nat) Nat :=
  run demo demoCode demoFresh [.assign "data" (some 5), .call "do_step_1" .ret]

theorem demo_unique : UniqueNames demo := by unfold UniqueNames demo; decide

theorem demo_known : StatesKnown demo := by unfold StatesKnown demo; decide

theorem demo_step2 : IsStep demo "do_step_2" 1 2 := by unfold IsStep demo; decide

/-! ## C01 -/

/-- **C01** A registered step executes its body exactly when the state has reached
its minimal state and every property registered for a stage at or below that
minimal state is flagged as set. -/
theorem C01_step_executes_iff_ready (c : ClassDesc) (hu : UniqueNames c) (code : Code σ V E)
    (m : Name) (lo hi : Int) (hm : IsStep c m lo hi) (body : Body σ V E) (w : World σ V) :
    Executed (call c code m body w).1 ↔ Ready c lo w := by
  rcases call_cases c hu code m lo hi hm body w with ⟨h1, h⟩ | ⟨_, h2, h⟩ | ⟨hr, r, w', hex, h⟩
  · rw [h]
    exact ⟨fun hx => hx.elim, fun hr => absurd hr.1 h1⟩
  · rw [h]
    refine ⟨fun hx => hx.elim, fun hr => ?_⟩
    exact absurd ((missingFor_nil_iff c lo (step_mentioned hm).1 _).2 hr.2) h2
  · refine ⟨fun _ => hr, fun _ => ?_⟩
    rcases h with ⟨e, _, h⟩ | ⟨_, h⟩ <;> rw [h] <;> trivial

/-- **C01** When the step is not ready the call is refused (it returns `None` with a
warning) and nothing at all changes: object, state, flags and events. -/
theorem C01_refused_changes_nothing (c : ClassDesc) (hu : UniqueNames c) (code : Code σ V E)
    (m : Name) (lo hi : Int) (hm : IsStep c m lo hi) (body : Body σ V E) (w : World σ V)
    (hn : ¬ Ready c lo w) :
    Refused (call c code m body w).1 ∧ (call c code m body w).2 = w := by
  rcases call_cases c hu code m lo hi hm body w with ⟨h1, h⟩ | ⟨_, h2, h⟩ | ⟨hr, _⟩
  · rw [h]; exact ⟨trivial, rfl⟩
  · rw [h]; exact ⟨trivial, rfl⟩
  · exact absurd hr hn

/-- **C01** The warning about missing attributes names exactly the unset properties
registered for a stage at or below the minimal state of the step. -/
theorem C01_warning_names_missing (c : ClassDesc) (hu : UniqueNames c) (code : Code σ V E)
    (m : Name) (lo hi : Int) (hm : IsStep c m lo hi) (body : Body σ V E) (w : World σ V)
    (l : List Name) (hl : (call c code m body w).1 = .refusedMissing l) (p : Name) :
    p ∈ l ↔ (∃ s, IsProp c p s ∧ s ≤ lo) ∧ w.flags p = false := by
  rcases call_cases c hu code m lo hi hm body w with ⟨h1, h⟩ | ⟨_, h2, h⟩ | ⟨hr, r, w', hex, h⟩
  · rw [h] at hl; simp at hl
  · rw [h] at hl
    simp at hl
    subst hl
    unfold missingFor
    rw [List.mem_filter, mem_propertiesRequired c lo p (step_mentioned hm).1]
    simp
  · rcases h with ⟨e, _, h⟩ | ⟨_, h⟩ <;> rw [h] at hl <;> simp at hl

/-- **C01, over histories** In the events recorded along any history starting from a
fresh instance, a step body is entered only by a call of that step made in an instance
state that was ready for it. -/
theorem C01_history_entered_ready (c : ClassDesc) (hu : UniqueNames c) (code : Code σ V E)
    (ops : List (Op σ V E)) (o : σ) (w0 : World σ V) (h0 : fresh c o = some w0) (m : Name)
    (hm : Event.entered m ∈ (run c code w0 ops).log) :
    ∃ pre rest body lo hi, ops = pre ++ .call m body :: rest ∧ IsStep c m lo hi ∧
      Ready c lo (run c code w0 pre) := by
  have hlog : w0.log = [] := by
    unfold fresh at h0
    cases hs : minStage c.states <;> simp [hs] at h0
    subst h0; rfl
  have key : ∀ (ops : List (Op σ V E)), Event.entered m ∈ (run c code w0 ops).log →
      ∃ pre rest body lo hi, ops = pre ++ .call m body :: rest ∧ IsStep c m lo hi ∧
        Ready c lo (run c code w0 pre) := by
    intro ops
    induction ops using List.reverseRecOn with
    | nil => intro h; simp [run, hlog] at h
    | append_singleton ops op ih =>
      intro h
      have hrun : run c code w0 (ops ++ [op]) = step c code (run c code w0 ops) op := by
        simp [run]
      rw [hrun] at h
      have old : Event.entered m ∈ (run c code w0 ops).log →
          ∃ pre rest body lo hi, ops ++ [op] = pre ++ .call m body :: rest ∧ IsStep c m lo hi ∧
            Ready c lo (run c code w0 pre) := by
        intro h
        obtain ⟨pre, rest, body, lo, hi, he, h1, h2⟩ := ih h
        exact ⟨pre, rest ++ [op], body, lo, hi, by simp [he], h1, h2⟩
      have hnew : ∀ (w1 w2 : World σ V) (new : List (Event V)), Quiet c w1 w2 new →
          Event.entered m ∈ w2.log → Event.entered m ∈ w1.log := by
        intro w1 w2 new hq h
        rw [hq.log] at h
        rcases List.mem_append.1 h with h | h
        · obtain ⟨p, v, hx⟩ := hq.only _ h
          cases hx
        · exact h
      rcases step_shape c hu code (run c code w0 ops) op with
        ⟨new, hq⟩ | ⟨m', body, hop, lo, hi, hst, hr, new, hq⟩ | ⟨m', body, hop, lo, hi, hst, hr, new, wb, hq, hw⟩
      · exact old (hnew _ _ _ hq h)
      · have := hnew _ _ _ hq h
        rcases List.mem_cons.1 this with h' | h'
        · injection h' with h'
          subst h'
          exact ⟨ops, [], body, lo, hi, by rw [hop], hst, hr⟩
        · exact old h'
      · rw [hw] at h
        rcases List.mem_cons.1 h with h' | h'
        · cases h'
        · have := hnew _ _ _ hq h'
          rcases List.mem_cons.1 this with h'' | h''
          · injection h'' with h''
            subst h''
            exact ⟨ops, [], body, lo, hi, by rw [hop], hst, hr⟩
          · exact old h''
  exact key ops hm

/-- Hypotheses of C01 are met, with a ready and a non-ready instance. -/
example : UniqueNames demo ∧ IsStep demo "do_step_2" 1 2 ∧
    Executed (call demo demoCode "do_step_2" .ret demoReady).1 ∧
    ¬ Executed (call demo demoCode "do_step_2" .ret demoFresh).1 := by
  refine ⟨demo_unique, demo_step2, ?_, ?_⟩
  · decide +revert
  · decide +revert

/-! ## C02 -/

/-- **C02** When the body returns, the state is exactly the step's next state, and
every property whose assignment did not complete inside the body keeps its flag. -/
theorem C02_returned (c : ClassDesc) (hu : UniqueNames c) (code : Code σ V E)
    (m : Name) (lo hi : Int) (hm : IsStep c m lo hi) (body : Body σ V E) (w : World σ V)
    (hret : (call c code m body w).1 = .returned) :
    (call c code m body w).2.current = hi ∧
    ∃ new, (call c code m body w).2.log = .completed m :: new ++ .entered m :: w.log ∧
      (∀ ev ∈ new, ∃ p v, ev = .assigned p v) ∧
      ∀ p, (∀ v, .assigned p v ∉ new) → (call c code m body w).2.flags p = w.flags p := by
  rcases call_cases c hu code m lo hi hm body w with ⟨h1, h⟩ | ⟨_, h2, h⟩ | ⟨hr, r, w', hex, h⟩
  · rw [h] at hret; simp at hret
  · rw [h] at hret; simp at hret
  · rcases h with ⟨e, _, h⟩ | ⟨_, h⟩
    · rw [h] at hret; simp at hret
    · obtain ⟨n, hq⟩ := exec_quiet c code body { w with log := .entered m :: w.log }
      rw [hex] at hq
      rw [h]
      refine ⟨rfl, n, ?_, hq.only, fun p hp => hq.flags p hp⟩
      have hl := hq.log
      simp only at hl
      simp [hl]

/-- **C02** When the body raises, the exception is the result of the call and the
wrapper adds no change of its own: what the instance looks like is what the body
left; in particular the state did not advance, and if the body had not completed any
assignment then state and flags are those before the call. -/
theorem C02_raised (c : ClassDesc) (hu : UniqueNames c) (code : Code σ V E)
    (m : Name) (lo hi : Int) (hm : IsStep c m lo hi) (body : Body σ V E) (w : World σ V)
    (e : E) (hraise : (call c code m body w).1 = .raised e) :
    exec c code body { w with log := .entered m :: w.log } = (some e, (call c code m body w).2) ∧
    (call c code m body w).2.current ≤ w.current ∧
    ∃ new, (call c code m body w).2.log = new ++ .entered m :: w.log ∧
      (∀ ev ∈ new, ∃ p v, ev = .assigned p v) ∧
      (∀ p, (∀ v, .assigned p v ∉ new) → (call c code m body w).2.flags p = w.flags p) ∧
      (new = [] → (call c code m body w).2.current = w.current ∧
        (call c code m body w).2.flags = w.flags) := by
  rcases call_cases c hu code m lo hi hm body w with ⟨h1, h⟩ | ⟨_, h2, h⟩ | ⟨hr, r, w', hex, h⟩
  · rw [h] at hraise; simp at hraise
  · rw [h] at hraise; simp at hraise
  · rcases h with ⟨e', he', h⟩ | ⟨_, h⟩
    · rw [h] at hraise
      simp at hraise
      subst hraise
      subst he'
      obtain ⟨n, hq⟩ := exec_quiet c code body { w with log := .entered m :: w.log }
      rw [hex] at hq
      rw [h]
      refine ⟨hex, hq.le, n, hq.log, hq.only, fun p hp => hq.flags p hp, ?_⟩
      intro hn
      refine ⟨hq.none hn, ?_⟩
      funext p
      exact hq.flags p (by simp [hn])
    · rw [h] at hraise; simp at hraise

/-- Hypotheses of C02 are met: a returning body that assigns a property, and a
raising body. -/
example : (call demo demoCode "do_step_2" (.assign "data" (some 7) fun _ => .ret) demoReady).1
      = .returned ∧
    (call demo demoCode "do_step_2" (.assign "data" (some 7) fun _ => .ret) demoReady).2.current
      = 2 ∧
    (call demo demoCode "do_step_2" (.raise "boom") demoReady).1 = .raised "boom" ∧
    (call demo demoCode "do_step_2" (.raise "boom") demoReady).2.current = 1 := by
  decide +revert

/-! ## C03 -/

/-- **C03** A completed assignment leaves the state at the minimum of the previous
state and the stage of the property, and changes no other flag. -/
theorem C03_assign_lowers (c : ClassDesc) (hu : UniqueNames c) (code : Code σ V E)
    (p : Name) (s : Int) (hp : IsProp c p s) (v : Option V) (w : World σ V)
    (hok : (assignNamed c code p v w).1 = none) :
    (assignNamed c code p v w).2.current = min w.current s ∧
    ∀ q, q ≠ p → (assignNamed c code p v w).2.flags q = w.flags q := by
  obtain ⟨ig, hp⟩ := hp
  have hf := find_prop hu hp
  rcases assignNamed_cases c code p v w with ⟨s', ig', hf', h⟩ | ⟨hno, _⟩
  · rw [hf] at hf'
    injection hf' with hf'
    injection hf' with h1 h2
    subst h1 h2
    rcases h with ⟨e, o, _, h⟩ | ⟨o, _, h⟩
    · rw [h] at hok; simp at hok
    · rw [h]
      refine ⟨rfl, fun q hq => ?_⟩
      simp [hq]
  · exact absurd hf (hno s ig)

/-- **C03** A rejected assignment (the setter raises) changes neither state nor flags. -/
theorem C03_rejected_changes_nothing (c : ClassDesc) (code : Code σ V E)
    (p : Name) (v : Option V) (w : World σ V) (e : E)
    (hrej : (assignNamed c code p v w).1 = some e) :
    (assignNamed c code p v w).2.current = w.current ∧
    (assignNamed c code p v w).2.flags = w.flags ∧
    (assignNamed c code p v w).2.log = w.log := by
  rcases assignNamed_cases c code p v w with ⟨s', ig', hf', h⟩ | ⟨_, h⟩
  · rcases h with ⟨e, o, _, h⟩ | ⟨o, _, h⟩
    · rw [h]; exact ⟨rfl, rfl, rfl⟩
    · rw [h] at hrej; simp at hrej
  · rw [h] at hrej; simp at hrej

/-- **C03** No sequence of assignments raises the state. -/
theorem C03_assignments_never_advance (c : ClassDesc) (code : Code σ V E) (w : World σ V)
    (ops : List (Op σ V E)) (ha : ∀ op ∈ ops, op.IsAssign) :
    (run c code w ops).current ≤ w.current := by
  induction ops generalizing w with
  | nil => exact Int.le_refl _
  | cons op ops ih =>
    have h1 := ih (step c code w op) (fun op' h => ha op' (by simp [h]))
    have h2 : (step c code w op).current ≤ w.current := by
      cases op with
      | assign p v =>
        obtain ⟨n, hq⟩ := assignNamed_quiet c code p v w
        exact hq.le
      | call m b => exact False.elim (ha (.call m b) (by simp))
    exact Int.le_trans h1 h2

/-- **C03** After a completed assignment of a property of stage `s`, going back above
stage `s` takes a completed step whose next state is above `s`: whatever the user
does afterwards, if the state is above `s` then such a step was completed after the
assignment. -/
theorem C03_assignment_invalidates (c : ClassDesc) (hu : UniqueNames c) (code : Code σ V E)
    (p : Name) (s : Int) (hp : IsProp c p s) (v : Option V) (w : World σ V)
    (hok : (assignNamed c code p v w).1 = none) (ops : List (Op σ V E))
    (habove : s < (run c code (assignNamed c code p v w).2 ops).current) :
    ∃ later m lo hi, (run c code (assignNamed c code p v w).2 ops).log =
        later ++ .assigned p v :: w.log ∧
      Event.completed m ∈ later ∧ IsStep c m lo hi ∧ s < hi := by
  have hstart : (assignNamed c code p v w).2.current ≤ s ∧
      (assignNamed c code p v w).2.log = .assigned p v :: w.log := by
    obtain ⟨ig, hp⟩ := hp
    have hf := find_prop hu hp
    rcases assignNamed_cases c code p v w with ⟨s', ig', hf', h⟩ | ⟨hno, _⟩
    · rw [hf] at hf'
      injection hf' with hf'
      injection hf' with h1 h2
      subst h1 h2
      rcases h with ⟨e, o, _, h⟩ | ⟨o, _, h⟩
      · rw [h] at hok; simp at hok
      · rw [h]
        refine ⟨?_, rfl⟩
        show min w.current s ≤ s
        omega
    · exact absurd hf (hno s ig)
  generalize (assignNamed c code p v w).2 = w1 at *
  have key : ∀ (ops : List (Op σ V E)), ∃ later, (run c code w1 ops).log = later ++ w1.log ∧
      (s < (run c code w1 ops).current →
        ∃ m lo hi, Event.completed m ∈ later ∧ IsStep c m lo hi ∧ s < hi) := by
    intro ops
    induction ops using List.reverseRecOn with
    | nil => exact ⟨[], rfl, fun h => by simp only [run, List.foldl_nil] at h; omega⟩
    | append_singleton ops op ih =>
      obtain ⟨later, hl, himp⟩ := ih
      have hrun : run c code w1 (ops ++ [op]) = step c code (run c code w1 ops) op := by
        simp [run]
      rw [hrun]
      rcases step_shape c hu code (run c code w1 ops) op with
        ⟨new, hq⟩ | ⟨m', body, hop, lo, hi, hst, hr, new, hq⟩ | ⟨m', body, hop, lo, hi, hst, hr, new, wb, hq, hw⟩
      · refine ⟨new ++ later, by rw [hq.log, hl, List.append_assoc], fun h => ?_⟩
        obtain ⟨m, lo, hi, h1, h2, h3⟩ := himp (Int.lt_of_lt_of_le h hq.le)
        exact ⟨m, lo, hi, by simp [h1], h2, h3⟩
      · refine ⟨new ++ .entered m' :: later, by rw [hq.log, hl]; simp, fun h => ?_⟩
        obtain ⟨m, lo, hi, h1, h2, h3⟩ := himp (Int.lt_of_lt_of_le h hq.le)
        exact ⟨m, lo, hi, by simp [h1], h2, h3⟩
      · refine ⟨.completed m' :: new ++ .entered m' :: later, ?_, fun h => ?_⟩
        · rw [hw]; simp [hq.log, hl]
        · rw [hw] at h
          exact ⟨m', lo, hi, by simp, hst, h⟩
  obtain ⟨later, hl, himp⟩ := key ops
  obtain ⟨m, lo, hi, h1, h2, h3⟩ := himp habove
  exact ⟨later, m, lo, hi, by rw [hl, hstart.2], h1, h2, h3⟩

/-- Hypotheses of C03 are met: assigning `data` on the finished demo instance lowers
the state from 2 to 1, and the rejected value 13 changes nothing. -/
example :
    let done := run demo demoCode demoReady [.call "do_step_2" .ret]
    done.current = 2 ∧ (assignNamed demo demoCode "data" (some 6) done).1 = none ∧
    (assignNamed demo demoCode "data" (some 6) done).2.current = 1 ∧
    (assignNamed demo demoCode "data" (some 13) done).1 = some "unlucky" ∧
    (run demo demoCode (assignNamed demo demoCode "data" (some 6) done).2
      [.call "do_step_2" .ret]).current = 2 := by
  decide +revert

/-! ## C04 -/

/-- **C04** After any history on a fresh instance, a registered property counts as set
exactly when it was assigned at least once and its most recent completed assignment
was not `None`, or the property was registered with `ignore_none=False`. -/
theorem C04_flags_mirror_history (c : ClassDesc) (hu : UniqueNames c) (code : Code σ V E)
    (o : σ) (w0 : World σ V) (h0 : fresh c o = some w0) (ops : List (Op σ V E))
    (p : Name) (s : Int) (ig : Bool) (hp : (⟨p, .prop s ig⟩ : Item) ∈ c.items) :
    (run c code w0 ops).flags p = true ↔
      ∃ v, lastAssigned p (run c code w0 ops).log = some v ∧ (v ≠ none ∨ ig = false) := by
  have hf := find_prop hu hp
  have hstart : w0.flags p = flagOf ig (lastAssigned p w0.log) := by
    unfold fresh at h0
    cases hs : minStage c.states <;> simp [hs] at h0
    subst h0; rfl
  rw [run_flag c code ops p w0 s ig hf hstart]
  cases h : lastAssigned p (run c code w0 ops).log with
  | none => simp [flagOf]
  | some v => cases v <;> cases ig <;> simp [flagOf]

/-- Hypotheses of C04 are met, with a set and an unset outcome. -/
example : fresh demo (none : Option Nat) = some demoFresh ∧
    (⟨"data", .prop 1 true⟩ : Item) ∈ demo.items ∧
    demoReady.flags "data" = true ∧
    (run demo demoCode demoReady [.assign "data" none]).flags "data" = false := by
  refine ⟨rfl, by decide, by decide +revert, by decide +revert⟩

/-! ## C05 -/

/-- **C05** After any history, the first component of `state.next` lists exactly the
properties registered for a stage at or below the current state that are not set. -/
theorem C05_next_lists_missing (c : ClassDesc) (hk : StatesKnown c) (code : Code σ V E)
    (o : σ) (w0 : World σ V) (h0 : fresh c o = some w0) (ops : List (Op σ V E)) (p : Name) :
    p ∈ (next c (run c code w0 ops)).1 ↔
      (∃ s, IsProp c p s ∧ s ≤ (run c code w0 ops).current) ∧
        (run c code w0 ops).flags p = false :=
  missingParameters_mem c _ (run_known c code ops w0 (fresh_known c hk o w0 h0)) p

/-- **C05** After any history, if nothing is reported as missing then the step
suggested by `state.next` is not refused: its body is executed. -/
theorem C05_suggested_step_runs (c : ClassDesc) (hu : UniqueNames c) (hk : StatesKnown c)
    (code : Code σ V E) (o : σ) (w0 : World σ V) (h0 : fresh c o = some w0)
    (ops : List (Op σ V E)) (m : Name) (hnone : (next c (run c code w0 ops)).1 = [])
    (hm : (next c (run c code w0 ops)).2 = .name m) (body : Body σ V E) :
    Executed (call c code m body (run c code w0 ops)).1 := by
  obtain ⟨hs, lo, hi, hst, hle⟩ := nextMethod_name c _ m hm
  rw [C01_step_executes_iff_ready c hu code m lo hi hst]
  refine ⟨hle, fun p s hp hsl => ?_⟩
  cases hfl : (run c code w0 ops).flags p with
  | true => rfl
  | false =>
    have : p ∈ (next c (run c code w0 ops)).1 :=
      (C05_next_lists_missing c hk code o w0 h0 ops p).2 ⟨⟨s, hp, by omega⟩, hfl⟩
    rw [hnone] at this
    simp at this

/-- Hypotheses of C05 are met: the demo instance after its first step suggests
`do_step_2` and misses nothing; after `data = None` it misses `data`. -/
example : next demo demoReady = ([], .name "do_step_2") ∧
    next demo (run demo demoCode demoReady [.assign "data" none]) =
      (["data"], .name "do_step_2") := by
  decide +revert

end Verif.StateTracking
