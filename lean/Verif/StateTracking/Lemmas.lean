import Verif.StateTracking.Spec

namespace Verif.StateTracking

variable {σ V E : Type}

open ClassDesc

/-! ### the sorted table of states -/

theorem mem_insertStage (s t : Int) (l : List Int) :
    t ∈ insertStage s l ↔ t = s ∨ t ∈ l := by
  induction l with
  | nil => simp [insertStage]
  | cons a l ih =>
    unfold insertStage
    split
    · simp
    · split
      · subst_vars; simp
      · simp [ih]; grind

theorem pairwise_insertStage (s : Int) (l : List Int) (h : l.Pairwise (· < ·)) :
    (insertStage s l).Pairwise (· < ·) := by
  induction l with
  | nil => simp [insertStage]
  | cons a l ih =>
    unfold insertStage
    rw [List.pairwise_cons] at h
    split
    · rename_i hsa
      refine List.pairwise_cons.2 ⟨?_, List.pairwise_cons.2 h⟩
      intro b hb
      rcases List.mem_cons.1 hb with rfl | hb
      · exact hsa
      · have := h.1 b hb; omega
    · split
      · exact List.pairwise_cons.2 h
      · refine List.pairwise_cons.2 ⟨?_, ih h.2⟩
        intro b hb
        rcases (mem_insertStage s b l).1 hb with rfl | hb
        · omega
        · exact h.1 b hb

theorem mem_foldr_insert (l : List Int) (t : Int) :
    t ∈ l.foldr insertStage [] ↔ t ∈ l := by
  induction l with
  | nil => simp
  | cons a l ih => simp [mem_insertStage, ih]

theorem mem_allStates (c : ClassDesc) (t : Int) : t ∈ c.allStates ↔ t ∈ c.mentioned :=
  mem_foldr_insert _ _

theorem pairwise_foldr_insert (l : List Int) :
    (l.foldr insertStage []).Pairwise (· < ·) := by
  induction l with
  | nil => simp
  | cons a l ih => exact pairwise_insertStage a _ ih

theorem pairwise_allStates (c : ClassDesc) : c.allStates.Pairwise (· < ·) :=
  pairwise_foldr_insert _

theorem mem_included (s : Int) (l : List Int) (hl : l.Pairwise (· < ·)) (hs : s ∈ l)
    (t : Int) : t ∈ included s l ↔ t ∈ l ∧ t ≤ s := by
  induction l with
  | nil => simp at hs
  | cons a l ih =>
    rw [List.pairwise_cons] at hl
    unfold included
    split
    · subst_vars
      constructor
      · intro h; simp at h; subst h; simp
      · rintro ⟨h1, h2⟩
        rcases List.mem_cons.1 h1 with rfl | h1
        · simp
        · have := hl.1 t h1; omega
    · rename_i hne
      have hs' : s ∈ l := by
        rcases List.mem_cons.1 hs with rfl | h
        · exact absurd rfl hne
        · exact h
      have hlt := hl.1 s hs'
      constructor
      · intro h
        rcases List.mem_cons.1 h with rfl | h
        · exact ⟨by simp, by omega⟩
        · have := (ih hl.2 hs').1 h
          exact ⟨by simp [this.1], this.2⟩
      · rintro ⟨h1, h2⟩
        rcases List.mem_cons.1 h1 with rfl | h1
        · simp
        · exact List.mem_cons.2 (Or.inr ((ih hl.2 hs').2 ⟨h1, h2⟩))

/-! ### registered entries -/

theorem mem_props (c : ClassDesc) (p : Name) (s : Int) :
    (p, s) ∈ c.props ↔ IsProp c p s := by
  unfold props IsProp
  simp only [List.mem_filterMap]
  constructor
  · rintro ⟨⟨n, k⟩, hi, h⟩
    cases k with
    | prop nx ig =>
      simp at h
      obtain ⟨rfl, rfl⟩ := h
      exact ⟨ig, hi⟩
    | step => simp at h
  · rintro ⟨ig, h⟩
    exact ⟨_, h, rfl⟩

theorem mem_steps (c : ClassDesc) (m : Name) (lo : Int) :
    (m, some lo) ∈ c.steps ↔ ∃ hi, IsStep c m lo hi := by
  unfold steps IsStep
  simp only [List.mem_filterMap]
  constructor
  · rintro ⟨⟨n, k⟩, hi, h⟩
    cases k with
    | prop nx ig => simp at h
    | step mn nx =>
      simp at h
      obtain ⟨rfl, rfl⟩ := h
      exact ⟨nx, hi⟩
  · rintro ⟨hi, h⟩
    exact ⟨_, h, rfl⟩

theorem prop_mentioned {c : ClassDesc} {p : Name} {s : Int} (h : IsProp c p s) :
    s ∈ c.mentioned := by
  obtain ⟨ig, h⟩ := h
  unfold mentioned
  exact List.mem_flatMap.2 ⟨_, h, by simp⟩

theorem step_mentioned {c : ClassDesc} {m : Name} {lo hi : Int} (h : IsStep c m lo hi) :
    lo ∈ c.mentioned ∧ hi ∈ c.mentioned := by
  unfold mentioned
  exact ⟨List.mem_flatMap.2 ⟨_, h, by simp⟩, List.mem_flatMap.2 ⟨_, h, by simp⟩⟩

theorem find_of_mem {c : ClassDesc} (hu : UniqueNames c) {i : Item} (h : i ∈ c.items) :
    c.find i.name = some i.kind := by
  unfold find
  unfold UniqueNames at hu
  generalize c.items = l at *
  induction l with
  | nil => simp at h
  | cons a l ih =>
    simp only [List.map_cons, List.nodup_cons] at hu
    simp only [List.find?_cons]
    rcases List.mem_cons.1 h with rfl | h'
    · simp
    · have : a.name ≠ i.name := by
        intro he
        apply hu.1
        rw [he]
        exact List.mem_map.2 ⟨i, h', rfl⟩
      simp [this]
      simpa using ih hu.2 h'

theorem find_mem {c : ClassDesc} {n : Name} {k : Kind} (h : c.find n = some k) :
    (⟨n, k⟩ : Item) ∈ c.items := by
  unfold find at h
  cases hf : c.items.find? (fun i => i.name = n) with
  | none => simp [hf] at h
  | some i =>
    simp [hf] at h
    have h1 := List.mem_of_find?_eq_some hf
    have h2 := List.find?_some hf
    simp at h2
    subst h2; subst h
    exact h1

theorem find_step {c : ClassDesc} (hu : UniqueNames c) {m : Name} {lo hi : Int}
    (h : IsStep c m lo hi) : c.find m = some (.step (some lo) hi) := find_of_mem hu h

theorem find_prop {c : ClassDesc} (hu : UniqueNames c) {p : Name} {s : Int} {ig : Bool}
    (h : (⟨p, .prop s ig⟩ : Item) ∈ c.items) : c.find p = some (.prop s ig) := find_of_mem hu h

/-! ### the tables say what they should -/

theorem mem_propertiesRequired (c : ClassDesc) (s : Int) (p : Name) (hs : s ∈ c.mentioned) :
    p ∈ c.propertiesRequired s ↔ ∃ t, IsProp c p t ∧ t ≤ s := by
  unfold propertiesRequired
  rw [if_pos ((mem_allStates c s).2 hs)]
  simp only [List.mem_map, List.mem_filter, decide_eq_true_eq]
  constructor
  · rintro ⟨⟨q, t⟩, ⟨h1, h2⟩, rfl⟩
    refine ⟨t, (mem_props c q t).1 h1, ?_⟩
    exact ((mem_included s _ (pairwise_allStates c) ((mem_allStates c s).2 hs) t).1 h2).2
  · rintro ⟨t, ht, hle⟩
    refine ⟨(p, t), ⟨(mem_props c p t).2 ht, ?_⟩, rfl⟩
    exact (mem_included s _ (pairwise_allStates c) ((mem_allStates c s).2 hs) t).2
      ⟨(mem_allStates c t).2 (prop_mentioned ht), hle⟩

theorem missingFor_nil_iff (c : ClassDesc) (lo : Int) (hlo : lo ∈ c.mentioned)
    (flags : Name → Bool) :
    missingFor c lo flags = [] ↔ ∀ p s, IsProp c p s → s ≤ lo → flags p = true := by
  unfold missingFor
  rw [List.filter_eq_nil_iff]
  constructor
  · intro h p s hp hle
    have := h p ((mem_propertiesRequired c lo p hlo).2 ⟨s, hp, hle⟩)
    simpa using this
  · intro h p hp
    obtain ⟨t, ht, hle⟩ := (mem_propertiesRequired c lo p hlo).1 hp
    simp [h p t ht hle]

theorem foldl_next_mem (l : List (Name × Option Int)) (inc : List Int) (acc : NextMethod)
    (n : Name)
    (h : l.foldl (fun acc st => match st.2 with
      | none => acc
      | some m => if m ∈ inc then NextMethod.name st.1 else acc) acc = .name n) :
    acc = .name n ∨ ∃ m, (n, some m) ∈ l ∧ m ∈ inc := by
  induction l generalizing acc with
  | nil => exact Or.inl h
  | cons a l ih =>
    simp only [List.foldl_cons] at h
    rcases ih _ h with h' | ⟨m, hm, hi⟩
    · obtain ⟨an, ao⟩ := a
      cases ao with
      | none => exact Or.inl h'
      | some m =>
        simp only at h'
        split at h'
        · rename_i hm
          simp at h'
          subst h'
          exact Or.inr ⟨m, by simp, hm⟩
        · exact Or.inl h'
    · exact Or.inr ⟨m, by simp [hm], hi⟩

theorem nextMethod_name (c : ClassDesc) (s : Int) (n : Name) (h : c.nextMethod s = .name n) :
    s ∈ c.mentioned ∧ ∃ lo hi, IsStep c n lo hi ∧ lo ≤ s := by
  unfold nextMethod at h
  split at h
  · rename_i hs
    rcases foldl_next_mem _ _ _ _ h with h' | ⟨m, hm, hi⟩
    · simp at h'
    · obtain ⟨nx, hst⟩ := (mem_steps c n m).1 hm
      refine ⟨(mem_allStates c s).1 hs, m, nx, hst, ?_⟩
      exact ((mem_included s _ (pairwise_allStates c) hs m).1 hi).2
  · simp at h

/-! ### single actions -/

theorem assignNamed_cases (c : ClassDesc) (code : Code σ V E) (p : Name) (v : Option V)
    (w : World σ V) :
    (∃ s ig, c.find p = some (.prop s ig) ∧
      ((∃ e o, code.setter p v w.obj = (some e, o) ∧
          assignNamed c code p v w = (some e, { w with obj := o })) ∨
       (∃ o, code.setter p v w.obj = (none, o) ∧
          assignNamed c code p v w = (none,
            { obj := o
              flags := fun q => if q = p then (if v.isNone && ig then false else true)
                       else w.flags q
              current := min w.current s
              log := .assigned p v :: w.log })))) ∨
    ((∀ s ig, c.find p ≠ some (.prop s ig)) ∧ assignNamed c code p v w = (none, w)) := by
  unfold assignNamed
  cases hf : c.find p with
  | none => right; simp
  | some k =>
    cases k with
    | step a b => right; simp
    | prop s ig =>
      left
      refine ⟨s, ig, rfl, ?_⟩
      simp only [assign]
      cases hset : code.setter p v w.obj with
      | mk r o =>
        cases r with
        | none => right; exact ⟨o, rfl, rfl⟩
        | some e => left; exact ⟨e, o, rfl, rfl⟩

/-- What a sequence of assignments (direct or inside a body) can do: only append
`assigned` events, lower the state to stages of assigned properties, and touch the
flags of assigned properties. -/
structure Quiet (c : ClassDesc) (w w' : World σ V) (new : List (Event V)) : Prop where
  log : w'.log = new ++ w.log
  only : ∀ ev ∈ new, ∃ p v, ev = .assigned p v
  le : w'.current ≤ w.current
  flags : ∀ p, (∀ v, .assigned p v ∉ new) → w'.flags p = w.flags p
  none : new = [] → w'.current = w.current

theorem Quiet.refl (c : ClassDesc) (w : World σ V) : Quiet c w w [] :=
  ⟨by simp, by simp, by simp, by simp, by simp⟩

theorem Quiet.trans {c : ClassDesc} {w1 w2 w3 : World σ V} {n1 n2 : List (Event V)}
    (h1 : Quiet c w1 w2 n1) (h2 : Quiet c w2 w3 n2) : Quiet c w1 w3 (n2 ++ n1) := by
  refine ⟨?_, ?_, ?_, ?_, ?_⟩
  · rw [h2.log, h1.log, List.append_assoc]
  · intro ev hev
    rcases List.mem_append.1 hev with h | h
    · exact h2.only ev h
    · exact h1.only ev h
  · exact Int.le_trans h2.le h1.le
  · intro p hp
    rw [h2.flags p (fun v hv => hp v (by simp [hv])), h1.flags p (fun v hv => hp v (by simp [hv]))]
  · intro h
    simp at h
    rw [h2.none h.1, h1.none h.2]

theorem quiet_update (c : ClassDesc) (w : World σ V) (o : σ) : Quiet c w { w with obj := o } [] :=
  ⟨by simp, by simp, by simp, by simp, by simp⟩

theorem assignNamed_quiet (c : ClassDesc) (code : Code σ V E) (p : Name) (v : Option V)
    (w : World σ V) : ∃ new, Quiet c w (assignNamed c code p v w).2 new := by
  rcases assignNamed_cases c code p v w with ⟨s, ig, _, h⟩ | ⟨_, h⟩
  · rcases h with ⟨e, o, _, h⟩ | ⟨o, _, h⟩
    · rw [h]; exact ⟨[], quiet_update c w o⟩
    · rw [h]
      refine ⟨[.assigned p v], ?_, ?_, ?_, ?_, ?_⟩
      · simp
      · intro ev hev; simp at hev; exact ⟨p, v, hev⟩
      · simp; omega
      · intro q hq
        have : q ≠ p := by
          rintro rfl
          exact hq v (by simp)
        simp [this]
      · simp
  · rw [h]; exact ⟨[], Quiet.refl c w⟩

theorem exec_quiet (c : ClassDesc) (code : Code σ V E) (b : Body σ V E) (w : World σ V) :
    ∃ new, Quiet c w (exec c code b w).2 new := by
  induction b generalizing w with
  | ret => exact ⟨[], Quiet.refl c w⟩
  | raise e => exact ⟨[], Quiet.refl c w⟩
  | read k ih => exact ih _ w
  | update f k ih =>
    obtain ⟨n, hn⟩ := ih { w with obj := f w.obj }
    exact ⟨n, by simpa [exec] using (quiet_update c w (f w.obj)).trans hn⟩
  | assign p v k ih =>
    obtain ⟨n1, h1⟩ := assignNamed_quiet c code p v w
    obtain ⟨n2, h2⟩ := ih (assignNamed c code p v w).1 (assignNamed c code p v w).2
    exact ⟨n2 ++ n1, h1.trans h2⟩

/-- All outcomes of a step call, in terms of readiness. -/
theorem call_cases (c : ClassDesc) (hu : UniqueNames c) (code : Code σ V E) (m : Name)
    (lo hi : Int) (hm : IsStep c m lo hi) (body : Body σ V E) (w : World σ V) :
    (¬ lo ≤ w.current ∧ call c code m body w = (.refusedState, w)) ∨
    (lo ≤ w.current ∧ missingFor c lo w.flags ≠ [] ∧
      call c code m body w = (.refusedMissing (missingFor c lo w.flags), w)) ∨
    (Ready c lo w ∧ ∃ r w', exec c code body { w with log := .entered m :: w.log } = (r, w') ∧
      ((∃ e, r = some e ∧ call c code m body w = (.raised e, w')) ∨
       (r = none ∧ call c code m body w =
          (.returned, { w' with current := hi, log := .completed m :: w'.log })))) := by
  unfold call
  rw [find_step hu hm]
  simp only
  by_cases h1 : w.current < lo
  · left
    refine ⟨by omega, ?_⟩
    rw [if_pos h1]
  · right
    rw [if_neg h1]
    have hlo := (step_mentioned hm).1
    by_cases h2 : missingFor c lo w.flags = []
    · right
      refine ⟨⟨by omega, (missingFor_nil_iff c lo hlo _).1 h2⟩, ?_⟩
      rw [if_neg (by simpa using h2)]
      cases hex : exec c code body { w with log := .entered m :: w.log } with
      | mk r w' =>
        refine ⟨r, w', rfl, ?_⟩
        cases r with
        | none => right; simp
        | some e => left; exact ⟨e, rfl, rfl⟩
    · left
      refine ⟨by omega, h2, ?_⟩
      rw [if_pos h2]

/-- A user action either changes nothing tracked, or is a quiet change, or enters a
body, or completes a step. -/
inductive StepShape (c : ClassDesc) (op : Op σ V E) (w w' : World σ V) : Prop where
  | quiet (new) (h : Quiet c w w' new)
  | raised (m) (body) (hop : op = .call m body) (lo hi) (hm : IsStep c m lo hi) (hr : Ready c lo w) (new)
      (h : Quiet c { w with log := .entered m :: w.log } w' new)
  | completed (m) (body) (hop : op = .call m body) (lo hi) (hm : IsStep c m lo hi) (hr : Ready c lo w) (new) (wb : World σ V)
      (h : Quiet c { w with log := .entered m :: w.log } wb new)
      (hw : w' = { wb with current := hi, log := .completed m :: wb.log })

theorem step_shape (c : ClassDesc) (hu : UniqueNames c) (code : Code σ V E) (w : World σ V)
    (op : Op σ V E) : StepShape c op w (step c code w op) := by
  cases op with
  | assign p v =>
    obtain ⟨n, h⟩ := assignNamed_quiet c code p v w
    exact .quiet n h
  | call m body =>
    show StepShape c _ w (call c code m body w).2
    cases hf : c.find m with
    | none =>
      have : call c code m body w = (.unknown, w) := by unfold call; rw [hf]
      rw [this]; exact .quiet [] (Quiet.refl c w)
    | some k =>
      cases k with
      | prop a b =>
        have : call c code m body w = (.unknown, w) := by unfold call; rw [hf]
        rw [this]; exact .quiet [] (Quiet.refl c w)
      | step mn nx =>
        cases mn with
        | none =>
          have : call c code m body w = (.typeError, w) := by unfold call; rw [hf]
          rw [this]; exact .quiet [] (Quiet.refl c w)
        | some lo =>
          have hm : IsStep c m lo nx := find_mem hf
          rcases call_cases c hu code m lo nx hm body w with ⟨_, h⟩ | ⟨_, _, h⟩ | ⟨hr, r, w', hex, h⟩
          · rw [h]; exact .quiet [] (Quiet.refl c w)
          · rw [h]; exact .quiet [] (Quiet.refl c w)
          · obtain ⟨n, hq⟩ := exec_quiet c code body { w with log := .entered m :: w.log }
            rw [hex] at hq
            rcases h with ⟨e, _, h⟩ | ⟨_, h⟩
            · rw [h]; exact .raised m body rfl lo nx hm hr n hq
            · rw [h]; exact .completed m body rfl lo nx hm hr n w' hq rfl

/-! ### flags and the log -/

/-- Flag predicted from the log. -/
def flagOf (ig : Bool) : Option (Option V) → Bool
  | none => false
  | some v => v.isSome || !ig

theorem assignNamed_flag (c : ClassDesc) (code : Code σ V E) (p q : Name) (v : Option V)
    (w : World σ V) (s : Int) (ig : Bool) (hq : c.find q = some (.prop s ig))
    (h : w.flags q = flagOf ig (lastAssigned q w.log)) :
    (assignNamed c code p v w).2.flags q =
      flagOf ig (lastAssigned q (assignNamed c code p v w).2.log) := by
  rcases assignNamed_cases c code p v w with ⟨s', ig', hp, h'⟩ | ⟨_, h'⟩
  · rcases h' with ⟨e, o, _, h'⟩ | ⟨o, _, h'⟩
    · rw [h']; exact h
    · rw [h']
      simp only [lastAssigned]
      by_cases hqp : q = p
      · subst hqp
        rw [hp] at hq
        injection hq with hq
        injection hq with _ hq
        subst hq
        cases v <;> cases ig' <;> simp [flagOf]
      · rw [if_neg hqp, if_neg (fun h => hqp h.symm)]
        exact h
  · rw [h']; exact h

theorem exec_flag (c : ClassDesc) (code : Code σ V E) (b : Body σ V E) (q : Name)
    (w : World σ V) (s : Int) (ig : Bool) (hq : c.find q = some (.prop s ig))
    (h : w.flags q = flagOf ig (lastAssigned q w.log)) :
    (exec c code b w).2.flags q = flagOf ig (lastAssigned q (exec c code b w).2.log) := by
  induction b generalizing w with
  | ret => exact h
  | raise e => exact h
  | read k ih => exact ih _ w h
  | update f k ih => exact ih { w with obj := f w.obj } h
  | assign p v k ih => exact ih _ _ (assignNamed_flag c code p q v w s ig hq h)

theorem step_flag (c : ClassDesc) (code : Code σ V E) (op : Op σ V E) (q : Name)
    (w : World σ V) (s : Int) (ig : Bool) (hq : c.find q = some (.prop s ig))
    (h : w.flags q = flagOf ig (lastAssigned q w.log)) :
    (step c code w op).flags q = flagOf ig (lastAssigned q (step c code w op).log) := by
  cases op with
  | assign p v => exact assignNamed_flag c code p q v w s ig hq h
  | call m body =>
    show (call c code m body w).2.flags q = flagOf ig (lastAssigned q (call c code m body w).2.log)
    unfold call
    split
    · split
      · exact h
      · simp only
        split
        · exact h
        · have h0 : ({ w with log := .entered m :: w.log } : World σ V).flags q =
              flagOf ig (lastAssigned q ({ w with log := .entered m :: w.log } : World σ V).log) := by
            simpa [lastAssigned] using h
          have := exec_flag c code body q _ s ig hq h0
          split
          · rename_i hex
            rw [hex] at this; exact this
          · rename_i hex
            rw [hex] at this
            simpa [lastAssigned] using this
    · exact h
    · exact h

theorem run_flag (c : ClassDesc) (code : Code σ V E) (ops : List (Op σ V E)) (q : Name)
    (w : World σ V) (s : Int) (ig : Bool) (hq : c.find q = some (.prop s ig))
    (h : w.flags q = flagOf ig (lastAssigned q w.log)) :
    (run c code w ops).flags q = flagOf ig (lastAssigned q (run c code w ops).log) := by
  induction ops generalizing w with
  | nil => exact h
  | cons op ops ih => exact ih _ (step_flag c code op q w s ig hq h)

/-! ### which states can occur -/

theorem minStage_le (l : List Int) (s t : Int) (h : minStage l = some s) (ht : t ∈ l) :
    s ≤ t := by
  induction l generalizing s with
  | nil => simp at ht
  | cons a l ih =>
    simp only [minStage] at h
    cases hm : minStage l with
    | none =>
      rw [hm] at h
      simp at h
      subst h
      rcases List.mem_cons.1 ht with rfl | ht
      · omega
      · cases l with
        | nil => simp at ht
        | cons b l =>
          simp only [minStage] at hm
          split at hm <;> simp at hm
    | some u =>
      rw [hm] at h
      simp at h
      subst h
      rcases List.mem_cons.1 ht with rfl | ht
      · omega
      · have := ih u hm ht; omega

/-- Reachable states are mentioned in a registration, or lie below all of them. -/
def Known (c : ClassDesc) (s : Int) : Prop :=
  s ∈ c.mentioned ∨ ∀ t ∈ c.mentioned, s < t

theorem known_min {c : ClassDesc} {s t : Int} (h : Known c s) (ht : t ∈ c.mentioned) :
    Known c (min s t) := by
  by_cases h' : s ≤ t
  · have : min s t = s := by omega
    rw [this]; exact h
  · have : min s t = t := by omega
    rw [this]; exact Or.inl ht

theorem assignNamed_known (c : ClassDesc) (code : Code σ V E) (p : Name) (v : Option V)
    (w : World σ V) (h : Known c w.current) : Known c (assignNamed c code p v w).2.current := by
  rcases assignNamed_cases c code p v w with ⟨s', ig', hp, h'⟩ | ⟨_, h'⟩
  · rcases h' with ⟨e, o, _, h'⟩ | ⟨o, _, h'⟩
    · rw [h']; exact h
    · rw [h']
      exact known_min h (prop_mentioned ⟨ig', find_mem hp⟩)
  · rw [h']; exact h

theorem exec_known (c : ClassDesc) (code : Code σ V E) (b : Body σ V E)
    (w : World σ V) (h : Known c w.current) : Known c (exec c code b w).2.current := by
  induction b generalizing w with
  | ret => exact h
  | raise e => exact h
  | read k ih => exact ih _ w h
  | update f k ih => exact ih { w with obj := f w.obj } h
  | assign p v k ih => exact ih _ _ (assignNamed_known c code p v w h)

theorem step_known (c : ClassDesc) (code : Code σ V E) (op : Op σ V E)
    (w : World σ V) (h : Known c w.current) : Known c (step c code w op).current := by
  cases op with
  | assign p v => exact assignNamed_known c code p v w h
  | call m body =>
    show Known c (call c code m body w).2.current
    unfold call
    split
    · rename_i lo hi hf
      split
      · exact h
      · simp only
        split
        · exact h
        · have := exec_known c code body { w with log := .entered m :: w.log } h
          split
          · rename_i hex
            rw [hex] at this; exact this
          · exact Or.inl (step_mentioned (find_mem hf)).2
    · exact h
    · exact h

theorem run_known (c : ClassDesc) (code : Code σ V E) (ops : List (Op σ V E))
    (w : World σ V) (h : Known c w.current) : Known c (run c code w ops).current := by
  induction ops generalizing w with
  | nil => exact h
  | cons op ops ih => exact ih _ (step_known c code op w h)

theorem fresh_known (c : ClassDesc) (hk : StatesKnown c) (o : σ) (w : World σ V)
    (h : fresh c o = some w) : Known c w.current := by
  unfold fresh at h
  cases hm : minStage c.states with
  | none => simp [hm] at h
  | some s =>
    simp [hm] at h
    subst h
    by_cases hs : s ∈ c.mentioned
    · exact Or.inl hs
    · right
      intro t ht
      have h1 := minStage_le _ _ _ hm (hk t ht)
      have : t ≠ s := by rintro rfl; exact hs ht
      show s < t
      omega

theorem missingParameters_mem (c : ClassDesc) (w : World σ V) (hk : Known c w.current) (p : Name) :
    p ∈ missingParameters c w ↔ (∃ s, IsProp c p s ∧ s ≤ w.current) ∧ w.flags p = false := by
  unfold missingParameters
  rw [List.mem_filter]
  rcases hk with hk | hk
  · rw [mem_propertiesRequired c _ p hk]
    simp
  · have hnot : w.current ∉ c.mentioned := fun h => by have := hk _ h; omega
    unfold propertiesRequired
    rw [if_neg (by rw [mem_allStates]; exact hnot)]
    constructor
    · rintro ⟨h, _⟩; simp at h
    · rintro ⟨⟨s, hs, hle⟩, _⟩
      have := hk s (prop_mentioned hs)
      omega

end Verif.StateTracking
