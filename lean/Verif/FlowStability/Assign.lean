import Verif.FlowStability.Props

/-!
# Assigned parameters read back: property C117
-/

namespace Verif.FlowStability

open Verif.StateTracking

variable {N F A : Type}

/-- What a caller means by a time direction: `None` is both directions, and any number equal
to -1, 0 or 1 is that direction; nothing else is one. -/
def directionGiven : Option (Val N F) → Option Int
  | none => some 0
  | some (.int i) => if i ∈ [-1, 0, 1] then some i else none
  | some (.num q) => [-1, 0, 1].find? fun i : Int => decide ((i : Rat) = q)
  | some _ => none

theorem setter_direction (v : Option (Val N F)) (o : Obj N F) :
    setter "time_direction" v o = match directionGiven v with
      | some d => (none, { o with timeDirection := d })
      | none => (some .assertionError, o) := by
  cases v with
  | none => rfl
  | some v =>
    cases v with
    | int i =>
      simp only [setter, directionGiven]
      by_cases h : i = -1 ∨ i = 0 ∨ i = 1
      · simp [h]
      · simp [h]
    | num q =>
      simp only [setter, directionGiven, List.find?]
      by_cases h1 : q = -1
      · subst h1; rfl
      · by_cases h2 : q = 0
        · subst h2; rfl
        · by_cases h3 : q = 1
          · subst h3; rfl
          · have e1 : ¬ ((-1 : Int) : Rat) = q := fun h => h1 (by rw [← h]; rfl)
            have e2 : ¬ ((0 : Int) : Rat) = q := fun h => h2 (by rw [← h]; rfl)
            have e3 : ¬ ((1 : Int) : Rat) = q := fun h => h3 (by rw [← h]; rfl)
            simp only [h1, h2, h3, e1, e2, e3, decide_false, if_false]
            rfl
    | net n => rfl
    | items l => rfl
    | generator l => rfl
    | flow ts f => rfl
    | other => rfl

/-- **C117** (direction).  An assignment to `time_direction` is accepted exactly for `None`
and numbers equal to -1, 0 or 1; it is then read back (`None` as 0, both directions) and
nothing else of the object changes; otherwise `AssertionError` is raised and the instance
stays as it was. -/
theorem C117_time_direction (w : FWorld N F) (v : Option (Val N F)) :
    (∀ d, directionGiven v = some d →
      (assignNamed desc code "time_direction" v w).1 = none ∧
      (assignNamed desc code "time_direction" v w).2.obj = { w.obj with timeDirection := d }) ∧
    (directionGiven v = none →
      assignNamed desc code "time_direction" v w = (some .assertionError, w)) := by
  have hf : desc.find "time_direction" = some (.prop 3 true) := by decide
  have hs := setter_direction v w.obj
  refine ⟨fun d hd => ?_, fun hd => ?_⟩
  · rw [hd] at hs
    simp only [assignNamed, hf, assign, code, hs]
    exact ⟨trivial, trivial⟩
  · rw [hd] at hs
    simp only [assignNamed, hf, assign, code, hs]

/-- **C117** (window).  Any value can be assigned to `t_start` and `t_stop`; it is read back
unchanged and nothing else of the object changes. -/
theorem C117_window (w : FWorld N F) (v : Option (Val N F)) :
    ((assignNamed desc code "t_start" v w).1 = none ∧
      (assignNamed desc code "t_start" v w).2.obj = { w.obj with tStart := v }) ∧
    ((assignNamed desc code "t_stop" v w).1 = none ∧
      (assignNamed desc code "t_stop" v w).2.obj = { w.obj with tStop := v }) := by
  have hf : desc.find "t_start" = some (.prop 1 false) := by decide
  have hg : desc.find "t_stop" = some (.prop 1 false) := by decide
  have hs : setter "t_start" v w.obj = (none, { w.obj with tStart := v }) := rfl
  have ht : setter "t_stop" v w.obj = (none, { w.obj with tStop := v }) := rfl
  simp only [assignNamed, hf, hg, assign, code, hs, ht]
  exact ⟨⟨trivial, trivial⟩, trivial, trivial⟩

/-- **C117** (results, what holds).  Assigning a pair of a time scale and a clustering of the
right direction stores it for that time scale; a pair with any other object stores `None`;
in both cases the entries of other time scales, the dictionary of the other direction and all
other fields stay as they are. -/
theorem C117_results_partial (w : FWorld N F) (ts : Option Rat) (f : F) :
    (∀ v r, (v = .flow ts (some (f, false)) ∧ r = some f) ∨ (v = .flow ts none ∧ r = none) →
      (assignNamed desc code "flow_clustering_forward" (some v) w).1 = none ∧
      (assignNamed desc code "flow_clustering_forward" (some v) w).2.obj =
        { w.obj with forward := fun k => if k = ts then some r else w.obj.forward k }) ∧
    (∀ v r, (v = .flow ts (some (f, true)) ∧ r = some f) ∨ (v = .flow ts none ∧ r = none) →
      (assignNamed desc code "flow_clustering_backward" (some v) w).1 = none ∧
      (assignNamed desc code "flow_clustering_backward" (some v) w).2.obj =
        { w.obj with backward := fun k => if k = ts then some r else w.obj.backward k }) := by
  have hf : desc.find "flow_clustering_forward" = some (.prop 4 true) := by decide
  have hg : desc.find "flow_clustering_backward" = some (.prop 4 true) := by decide
  constructor
  · rintro v r (⟨rfl, rfl⟩ | ⟨rfl, rfl⟩)
    all_goals
      simp only [assignNamed, hf, assign, code]
      exact ⟨rfl, rfl⟩
  · rintro v r (⟨rfl, rfl⟩ | ⟨rfl, rfl⟩)
    all_goals
      simp only [assignNamed, hg, assign, code]
      exact ⟨rfl, rfl⟩

/-- **C117** is violated for a clustering of the wrong direction: the documentation says that
`None` is stored and a warning is given; instead `AssertionError` is raised and the instance
stays as it was, an older result included. -/
theorem C117_wrong_direction_violated (w : FWorld N F) (ts : Option Rat) (f : F) :
    assignNamed desc code "flow_clustering_forward" (some (.flow ts (some (f, true)))) w =
      (some .assertionError, w) ∧
    assignNamed desc code "flow_clustering_backward" (some (.flow ts (some (f, false)))) w =
      (some .assertionError, w) := ⟨rfl, rfl⟩

/-- **C117** (network).  A network is stored; any other value, `None` included, removes the
stored network without an exception; nothing else of the object changes. -/
theorem C117_network (w : FWorld N F) (v : Option (Val N F)) :
    (assignNamed desc code "temporal_network" v w).1 = none ∧
    (∀ n, v = some (.net n) → (assignNamed desc code "temporal_network" v w).2.obj =
      { w.obj with temporalNetwork := some n }) ∧
    ((∀ n, v ≠ some (.net n)) → (assignNamed desc code "temporal_network" v w).2.obj =
      { w.obj with temporalNetwork := none }) := by
  cases v with
  | none => exact ⟨rfl, fun n h => by simp at h, fun _ => rfl⟩
  | some v =>
    cases v with
    | net n =>
      refine ⟨rfl, fun m h => ?_, fun h => absurd rfl (h n)⟩
      cases h; rfl
    | num q => exact ⟨rfl, fun n h => by simp at h, fun _ => rfl⟩
    | int q => exact ⟨rfl, fun n h => by simp at h, fun _ => rfl⟩
    | items q => exact ⟨rfl, fun n h => by simp at h, fun _ => rfl⟩
    | generator q => exact ⟨rfl, fun n h => by simp at h, fun _ => rfl⟩
    | flow q f => exact ⟨rfl, fun n h => by simp at h, fun _ => rfl⟩
    | other => exact ⟨rfl, fun n h => by simp at h, fun _ => rfl⟩

/-- **C117** (time scales).  An accepted assignment to `time_scale` changes no other field. -/
theorem C117_time_scale_frame (w : FWorld N F) (v : Option (Val N F)) :
    ∃ it, (assignNamed desc code "time_scale" v w).2.obj = { w.obj with timeScale := it } := by
  have hst : ∀ it, ∃ it', (storeTimeScale it w.obj).2 = { w.obj with timeScale := it' } := by
    intro it
    unfold storeTimeScale
    simp only
    split
    · exact ⟨_, rfl⟩
    · exact ⟨w.obj.timeScale, rfl⟩
  have key : ∃ it, (setter "time_scale" v w.obj).2 = { w.obj with timeScale := it } := by
    cases v with
    | none => exact hst (.reusable [none])
    | some v =>
      cases v with
      | num q => exact hst (.reusable [some q])
      | int i => exact hst (.reusable [some (i : Rat)])
      | items l => exact hst l
      | net n => exact ⟨w.obj.timeScale, rfl⟩
      | generator l => exact ⟨w.obj.timeScale, rfl⟩
      | flow ts f => exact ⟨w.obj.timeScale, rfl⟩
      | other => exact ⟨w.obj.timeScale, rfl⟩
  obtain ⟨it, hit⟩ := key
  refine ⟨it, ?_⟩
  simp only [assignNamed, find_scale, assign, code]
  rw [← hit]
  cases setter "time_scale" v w.obj with
  | mk r o => cases r <;> rfl

/-- **C117** (`set_time_scale`).  It assigns the value if one is given, whatever the other
arguments; without a value the numbers of the logarithmic range; without any argument
`None`. -/
theorem C117_set_time_scale (x : Ext N F A) (w : FWorld N F) (l : List Rat) (v : Val N F)
    (r : Option (List Rat)) :
    runF x w [.setTimeScale (some v) r] = runF x w [.assign "time_scale" (some v)] ∧
    runF x w [.setTimeScale none (some l)] =
      runF x w [.assign "time_scale" (some (.items (.reusable (l.map some))))] ∧
    runF x w [.setTimeScale none none] = runF x w [.assign "time_scale" none] :=
  ⟨rfl, rfl, rfl⟩

/-- **C117** (constructor).  If the constructor succeeds, the new instance has the network,
the window, the direction and the time scales that were given, and no results. -/
theorem C117_constructor (net tStart tStop scale dir : Option (Val N F)) (w : FWorld N F)
    (h : construct net tStart tStop scale dir = .ok w) :
    w.obj.tStart = tStart ∧ w.obj.tStop = tStop ∧
    (∀ n, w.obj.temporalNetwork = some n ↔ net = some (.net n)) ∧
    directionGiven dir = some w.obj.timeDirection ∧
    (∀ l, scalesGiven scale = some l → (∀ l', scale ≠ some (.items (.oneShot l'))) →
      w.obj.timeScale = .reusable l) ∧
    (∀ k, w.obj.forward k = none ∧ w.obj.backward k = none) := by
  simp only [construct, initOps, assignAll] at h
  obtain ⟨h1, h1n, h1o⟩ := C117_network (blank : FWorld N F) net
  generalize hw1 : assignNamed desc code "temporal_network" net (blank : FWorld N F) = p1 at h h1 h1n h1o
  obtain ⟨r1, w1⟩ := p1
  simp only at h1; subst h1
  simp only at h
  obtain ⟨h2, h2o⟩ := (C117_window w1 tStart).1
  generalize hw2 : assignNamed desc code "t_start" tStart w1 = p2 at h h2 h2o
  obtain ⟨r2, w2⟩ := p2
  simp only at h2; subst h2
  simp only at h
  obtain ⟨h3, h3o⟩ := (C117_window w2 tStop).2
  generalize hw3 : assignNamed desc code "t_stop" tStop w2 = p3 at h h3 h3o
  obtain ⟨r3, w3⟩ := p3
  simp only at h3; subst h3
  simp only at h
  obtain ⟨it, h4o⟩ := C117_time_scale_frame w3 scale
  have hsc : ∀ l, scalesGiven scale = some l → (∀ l', scale ≠ some (.items (.oneShot l'))) →
      (assignNamed desc code "time_scale" scale w3).1 = none →
      (assignNamed desc code "time_scale" scale w3).2.obj.timeScale = .reusable l := by
    intro l hl hre hok
    have hst : ∀ it : PyIter, (storeTimeScale it w3.obj).1 = none →
        (storeTimeScale it w3.obj).2.timeScale = it.loop.2 := by
      intro it h
      unfold storeTimeScale at *
      simp only at *
      split
      · rfl
      · rename_i h'; rw [if_neg h'] at h; simp at h
    have key : (setter "time_scale" scale w3.obj).1 = none →
        (setter "time_scale" scale w3.obj).2.timeScale = .reusable l := by
      intro h
      cases scale with
      | none =>
        simp [setter, scalesGiven] at h hl ⊢
        rw [hst _ h, ← hl]; rfl
      | some v =>
        cases v with
        | num q =>
          simp [setter, scalesGiven] at h hl ⊢
          rw [hst _ h, ← hl]; rfl
        | int q =>
          simp [setter, scalesGiven] at h hl ⊢
          rw [hst _ h, ← hl]; rfl
        | items it =>
          cases it with
          | reusable l' =>
            simp [setter, scalesGiven] at h hl ⊢
            rw [hst _ h, ← hl]; rfl
          | oneShot l' => exact absurd rfl (hre l')
        | net n => simp [scalesGiven] at hl
        | generator l => simp [scalesGiven] at hl
        | flow ts f => simp [scalesGiven] at hl
        | other => simp [scalesGiven] at hl
    simp only [assignNamed, find_scale, assign, code] at hok ⊢
    cases hs : setter "time_scale" scale w3.obj with
    | mk r o =>
      rw [hs] at key hok
      cases r with
      | none => exact key rfl
      | some e => simp at hok
  generalize hw4 : assignNamed desc code "time_scale" scale w3 = p4 at h h4o hsc
  obtain ⟨r4, w4⟩ := p4
  cases r4 with
  | some e => simp at h
  | none =>
    simp only at h h4o hsc
    obtain ⟨h5, h5n⟩ := C117_time_direction w4 dir
    cases hd : directionGiven dir with
    | none => rw [h5n hd] at h; simp at h
    | some d =>
      obtain ⟨h5r, h5o⟩ := h5 d hd
      generalize hw5 : assignNamed desc code "time_direction" dir w4 = p5 at h h5r h5o
      obtain ⟨r5, w5⟩ := p5
      simp only at h5r; subst h5r
      simp only [Except.ok.injEq] at h
      subst h
      simp only at h5o h3o h2o h1n h1o
      have hts : ∀ l, scalesGiven scale = some l →
          (∀ l', scale ≠ some (.items (.oneShot l'))) → w5.obj.timeScale = .reusable l := by
        intro l hl hre
        rw [h5o]
        exact hsc l hl hre trivial
      rw [h5o, h4o, h3o, h2o]
      refine ⟨rfl, rfl, ?_, rfl, ?_, ?_⟩
      · intro n
        simp only
        by_cases hn : ∃ m, net = some (.net m)
        · obtain ⟨m, rfl⟩ := hn
          rw [h1n m rfl]
          simp
        · rw [h1o fun m hm => hn ⟨m, hm⟩]
          constructor
          · intro h; simp at h
          · intro h; exact absurd ⟨n, h⟩ hn
      · intro l hl hre
        have := hts l hl hre
        rw [h5o, h4o] at this
        exact this
      · intro k
        simp only
        by_cases hn : ∃ m, net = some (.net m)
        · obtain ⟨m, rfl⟩ := hn
          rw [h1n m rfl]
          exact ⟨rfl, rfl⟩
        · rw [h1o fun m hm => hn ⟨m, hm⟩]
          exact ⟨rfl, rfl⟩

/-- A constructor call that succeeds, and values that are and are not directions. -/
example : (∃ w : FWorld Nat Nat, construct (some (.net 3)) (some (.num 1)) none (some (.num 2))
      (some (.num (-1))) = .ok w) ∧
    directionGiven (some (.num (-1)) : Option (Val Nat Nat)) = some (-1) ∧
    directionGiven (some (.int 2) : Option (Val Nat Nat)) = none :=
  ⟨⟨_, rfl⟩, by decide +kernel, by decide⟩

end Verif.FlowStability
