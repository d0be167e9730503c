import Verif.SynthRuns.States

/-!
# A second run of the same object (C99)
-/

set_option linter.dupNamespace false
set_option linter.unusedSectionVars false

namespace Verif.SynthRuns

open Verif.Synth

variable {K : Type} [Field K] [LinearOrder K] [IsStrictOrderedRing K]

/-- The invariant of a second run that starts with the queue and the matrix of `s₁`: nobody is in the queue who
does not exist, what is recorded is kept, the partners of the new contacts were not in contact in `s₁`, and until the end
time those that were are still in contact, with ends not before the end time. -/
structure AgainInv (sim : Sim K) (s₁ s : St K) : Prop where
  queue : ∀ e ∈ s.queue, e.id ∈ sim.ids ∧ ∀ q, e.partner = some q → q ∈ sim.ids
  events : ∃ new, s.events = s₁.events ++ new
  log : ∃ new, s.log = s₁.log ++ new ∧ ∀ c ∈ new, s₁.A c.src.toNat c.tgt.toNat = false
  still : sim.tEnd ≤ s.t ∨ ∀ a b, s₁.A a b = true → s.A a b = true ∧
    ∀ e ∈ s.queue, ∀ q, e.partner = some q → e.id.toNat = a → q.toNat = b → sim.tEnd ≤ e.time

theorem again_step {sim : Sim K} {d : Draws K} (hv : Valid sim) (hg : Good sim d) {s₁ s s' : St K}
    (h : AgainInv sim s₁ s) (hs : step sim d s = .ok s') : AgainInv sim s₁ s' := by
  rcases step_adds hv hg (fun e he => (h.queue e he).1) hs with ⟨rfl, -⟩ | ⟨hlt, e, heq, ht, -, h'⟩
  · exact h
  have hstill : ∀ a b, s₁.A a b = true → s.A a b = true ∧
      ∀ e ∈ s.queue, ∀ q, e.partner = some q → e.id.toNat = a → q.toNat = b → sim.tEnd ≤ e.time := by
    rcases h.still with h | h
    · exact absurd hlt (not_lt.2 h)
    · exact h
  rcases h' with ⟨-, hev, ⟨new, hl, hn⟩, hq, hA⟩ | ⟨q, hp, hl, hq, hev, hA⟩
  · refine ⟨?_, ?_, ?_, .inr ?_⟩
    · intro e' he'
      rcases hq e' he' with h1 | ⟨⟨q, h1, h2, h3, -⟩, -⟩ | ⟨k, x, -, rfl⟩
      · exact h.queue e' h1
      · rw [h2]
        refine ⟨(h.queue e heq).1, ?_⟩
        intro q' hq'
        rw [h1] at hq'
        cases hq'
        exact h3
      · exact ⟨(h.queue e heq).1, by simp⟩
    · rw [hev]; exact h.events
    · obtain ⟨l, h1, h2⟩ := h.log
      refine ⟨l ++ new, by rw [hl, h1, List.append_assoc], ?_⟩
      intro c hc
      rcases List.mem_append.1 hc with hc | hc
      · exact h2 c hc
      · obtain ⟨-, h3, -, h4⟩ := hn c hc
        by_contra hne
        rw [Bool.not_eq_false] at hne
        have := (hstill _ _ hne).1
        rw [h3, h4] at this
        cases this
    · intro a b hab
      obtain ⟨h1, h2⟩ := hstill a b hab
      refine ⟨hA a b h1, ?_⟩
      intro e' he' q' hq' ha hb
      rcases hq e' he' with h3 | ⟨⟨q, h3, h4, -, h5⟩, -⟩ | ⟨k, x, -, rfl⟩
      · exact h2 e' h3 q' hq' ha hb
      · rw [h3] at hq'
        cases hq'
        rw [← h4, ha, hb, h1] at h5
        cases h5
      · cases hq'
  · refine ⟨fun e' he' => h.queue e' (hq e' he'), ?_, by rw [hl]; exact h.log, ?_⟩
    · obtain ⟨l, h1⟩ := h.events
      exact ⟨l ++ [⟨e.id, q, s.last (wrap sim.n e.id) (wrap sim.n q), s'.t⟩], by rw [hev, h1, List.append_assoc]⟩
    · by_cases hend : sim.tEnd ≤ s'.t
      · exact .inl hend
      · refine .inr ?_
        intro a b hab
        obtain ⟨h1, h2⟩ := hstill a b hab
        refine ⟨?_, fun e' he' => h2 e' (hq e' he')⟩
        rw [hA]
        unfold setAt
        split
        · next hc =>
          rw [wrap_nonneg (hv.bounds (h.queue e heq).1).1, wrap_nonneg (hv.bounds ((h.queue e heq).2 q hp)).1] at hc
          have := h2 e heq q hp hc.1.symm hc.2.symm
          rw [← ht] at this
          exact absurd this hend
        · exact h1

theorem again {sim : Sim K} {d : Draws K} (hv : Valid sim) (hg : Good sim d) {s₁ : St K} (hI : Inv sim s₁)
    (hend : sim.tEnd ≤ s₁.t) {k : Nat} {s₂ : St K} (hs : run sim d k s₁ = .ok s₂) : AgainInv sim s₁ s₂ := by
  unfold run at hs
  split at hs
  · cases hs
  next s hi =>
  have h0 : AgainInv sim s₁ s := by
    obtain ⟨ht, he, hl, hA, -, new, hq, hid, hn⟩ := initEvents_adds _ hi
    have hq : s.queue = new ++ s₁.queue := hq
    have hold : ∀ e ∈ s₁.queue, ∀ q, e.partner = some q → q ∈ sim.ids ∧ sim.tEnd ≤ e.time := by
      intro e he q hp
      have hr : (⟨e.id, q, s₁.last (wrap sim.n e.id) (wrap sim.n q), e.time⟩ : Contact K) ∈ running sim s₁ := by
        unfold running
        rw [List.mem_filterMap]
        exact ⟨e, he, by unfold contactOf; rw [hp]; rfl⟩
      exact ⟨(hI.runFormed hr).tgt, hend.trans (hI.queue e he).1⟩
    refine ⟨?_, ⟨[], by rw [he]; simp⟩, ⟨[], by rw [hl]; simp, by simp⟩, .inr ?_⟩
    · intro e hm
      rw [hq] at hm
      rcases List.mem_append.1 hm with hm | hm
      · refine ⟨?_, ?_⟩
        · have : e.id ∈ new.map (·.id) := List.mem_map_of_mem hm
          rw [hid] at this
          simpa using this
        · intro q hp
          rw [(hn e hm).1] at hp
          cases hp
      · exact ⟨(hI.queue e hm).2, fun q hp => (hold e hm q hp).1⟩
    · intro a b hab
      refine ⟨by rw [hA]; exact hab, ?_⟩
      intro e hm q hp _ _
      rw [hq] at hm
      rcases List.mem_append.1 hm with hm | hm
      · rw [(hn e hm).1] at hp
        cases hp
      · exact (hold e hm q hp).2
  have hpass : ∀ (k : Nat) {s : St K}, AgainInv sim s₁ s → passes sim d k s = .ok s₂ → AgainInv sim s₁ s₂ := by
    intro k
    induction k with
    | zero => intro s h hs; cases hs; exact h
    | succ k ih =>
      intro s h hs
      unfold passes at hs
      split at hs
      · cases hs
      · next s2 h2 => exact ih (again_step hv hg h h2) hs
  exact hpass k h0 hs

/-- **C99**.  A second call of `run` keeps what the first one recorded, in front. -/
theorem C99_kept {sim : Sim K} {d₁ d₂ : Draws K} (hv : Valid sim) (h₁ : Good sim d₁) (h₂ : Good sim d₂) {k₁ k₂ : Nat}
    {s₁ s₂ : St K} (hs₁ : run sim d₁ k₁ (fresh sim) = .ok s₁) (hend : sim.tEnd ≤ s₁.t) (hs₂ : run sim d₂ k₂ s₁ = .ok s₂) :
    s₁.events <+: s₂.events := by
  obtain ⟨new, h⟩ := (again hv h₂ (run_inv hv h₁ hs₁) hend hs₂).events
  exact ⟨new, h.symm⟩

/-- **C99 (violated)**.  A second call of `run` does not simulate the population from the start: whoever was in
contact with somebody at the end of the first run begins no contact with them, whatever is drawn. -/
theorem C99_blocked_violated {sim : Sim K} {d₁ d₂ : Draws K} (hv : Valid sim) (h₁ : Good sim d₁) (h₂ : Good sim d₂) {k₁ k₂ : Nat}
    {s₁ s₂ : St K} (hs₁ : run sim d₁ k₁ (fresh sim) = .ok s₁) (hend : sim.tEnd ≤ s₁.t) (hs₂ : run sim d₂ k₂ s₁ = .ok s₂)
    {a b : Int} (hab : ∃ c ∈ s₁.log, c.src = a ∧ c.tgt = b ∧ s₁.t < c.stop) :
    ∃ new, s₂.log = s₁.log ++ new ∧ ∀ c ∈ new, ¬ (c.src = a ∧ c.tgt = b) := by
  have hI := run_inv hv h₁ hs₁
  obtain ⟨new, h1, h2⟩ := (again hv h₂ hI hend hs₂).log
  refine ⟨new, h1, ?_⟩
  rintro c hc ⟨rfl, rfl⟩
  obtain ⟨c', hc', h3, h4, h5⟩ := hab
  have := adj_complete hv hI hc' h5
  rw [h3, h4, h2 c hc] at this
  cases this

/-! ## A second run after which nobody was left in contact -/

/-- The tape without its first `c` numbers. -/
def later (d : Draws K) (c : Nat) : Draws K :=
  { activ := fun k => d.activ (k + c), inter := fun k => d.inter (k + c)
    targetGroup := fun k => d.targetGroup (k + c), pick := fun k => d.pick (k + c) }

/-- A state of a first run inside that of a second one. -/
def lift (s₁ s : St K) : St K :=
  { t := s.t, A := s.A, last := s.last, queue := s.queue ++ s₁.queue, events := s₁.events ++ s.events
    count := s.count + s₁.count, log := s₁.log ++ s.log }

theorem putActivation_lift (d : Draws K) (s₁ : St K) (i : Int) (s : St K) :
    putActivation d i (lift s₁ s) = (putActivation (later d s₁.count) i s).map (lift s₁) := by
  unfold putActivation
  show (match d.activ (s.count + s₁.count) i s.t with
    | none => _
    | some x => _) = _
  have : (later d s₁.count).activ s.count i s.t = d.activ (s.count + s₁.count) i s.t := rfl
  rw [this]
  cases d.activ (s.count + s₁.count) i s.t with
  | none => rfl
  | some x =>
    simp only [Except.map]
    unfold lift
    simp [Nat.add_right_comm]

theorem drawPartner_lift (d : Draws K) (s₁ : St K) (l un : List Int) (s : St K) :
    drawPartner d l un (lift s₁ s) = (drawPartner (later d s₁.count) l un s).map (Prod.map id (lift s₁)) := by
  unfold drawPartner
  cases l.filter fun q => decide (q ∉ un) with
  | nil => rfl
  | cons c cs =>
    simp only [Except.map]
    unfold lift later
    simp [Nat.add_right_comm]

theorem drawFromBlock_lift (sim : Sim K) (d : Draws K) (s₁ : St K) (p : Nat → K) (i : Int) (s : St K) :
    drawFromBlock sim d p i (lift s₁ s) = (drawFromBlock sim (later d s₁.count) p i s).map (Prod.map id (lift s₁)) := by
  unfold drawFromBlock
  split
  · rfl
  simp only
  have e1 : d.targetGroup (lift s₁ s).count p = (later d s₁.count).targetGroup s.count p := rfl
  have e2 : ({ lift s₁ s with count := (lift s₁ s).count + 1 } : St K) = lift s₁ { s with count := s.count + 1 } := by
    unfold lift
    simp [Nat.add_right_comm]
  have e3 : ∀ s : St K, unPartners sim.n (lift s₁ s) i = unPartners sim.n s i := fun _ => rfl
  rw [e1, e2, e3]
  cases members sim ((later d s₁.count).targetGroup s.count p) with
  | nil => rfl
  | cons c cs =>
    simp only
    split
    · rfl
    · exact drawPartner_lift d s₁ _ _ _

theorem newPartner_lift (sim : Sim K) (d : Draws K) (s₁ : St K) (i : Int) (s : St K) :
    newPartner sim d i (lift s₁ s) = (newPartner sim (later d s₁.count) i s).map (Prod.map id (lift s₁)) := by
  unfold newPartner
  have e3 : unPartners sim.n (lift s₁ s) i = unPartners sim.n s i := rfl
  have e4 : (lift s₁ s).t = s.t := rfl
  cases sim.method with
  | uniform =>
    simp only [e3]
    split
    · rfl
    · exact drawPartner_lift d s₁ _ _ _
  | withinGroup =>
    simp only [e3]
    split
    · rfl
    · exact drawPartner_lift d s₁ _ _ _
  | block probs =>
    simp only
    split
    · rfl
    · exact drawFromBlock_lift sim d s₁ _ _ _
  | blockMod f =>
    simp only [e4]
    split
    · rfl
    · exact drawFromBlock_lift sim d s₁ _ _ _
  | other => rfl

theorem interact_lift (sim : Sim K) (d : Draws K) (s₁ : St K) (i : Int) (s : St K) :
    interact sim d i (lift s₁ s) = (interact sim (later d s₁.count) i s).map (lift s₁) := by
  unfold interact
  rw [newPartner_lift]
  cases newPartner sim (later d s₁.count) i s with
  | error e => rfl
  | ok r =>
    obtain ⟨q, s⟩ := r
    cases q with
    | none => rfl
    | some q =>
      simp only [Except.map, Prod.map, id]
      have : d.inter (lift s₁ s).count i (lift s₁ s).t = (later d s₁.count).inter s.count i s.t := rfl
      rw [this]
      cases (later d s₁.count).inter s.count i s.t with
      | none => rfl
      | some x =>
        simp only
        unfold lift
        simp [Nat.add_right_comm]

theorem interactions_lift (sim : Sim K) (d : Draws K) (s₁ : St K) (i : Int) : ∀ (k : Nat) (s : St K),
    interactions sim d i k (lift s₁ s) = (interactions sim (later d s₁.count) i k s).map (lift s₁)
  | 0, s => rfl
  | k + 1, s => by
    unfold interactions
    rw [interact_lift]
    cases interact sim (later d s₁.count) i s with
    | error e => rfl
    | ok s => exact interactions_lift sim d s₁ i k s

theorem initEvents_lift (d : Draws K) (s₁ : St K) : ∀ (l : List Int) (s : St K),
    initEvents d l (lift s₁ s) = (initEvents (later d s₁.count) l s).map (lift s₁)
  | [], s => rfl
  | i :: l, s => by
    unfold initEvents
    rw [putActivation_lift]
    cases putActivation (later d s₁.count) i s with
    | error e => rfl
    | ok s => exact initEvents_lift d s₁ l s

theorem before_of_lt {a b : Ev K} (h : a.time < b.time) : a.before b = true := by
  unfold Ev.before
  rw [if_neg h.ne]
  exact decide_eq_true h

/-- Entries that are due later do not change which entry comes first. -/
theorem popMin_append {old : List (Ev K)} {T : K} (hold : ∀ e ∈ old, T ≤ e.time) : ∀ {q : List (Ev K)} {e : Ev K} {r : List (Ev K)},
    popMin q = some (e, r) → e.time < T → popMin (q ++ old) = some (e, r ++ old)
  | [], e, r, h, _ => by cases h
  | x :: q, e, r, h, hT => by
    show popMin (x :: (q ++ old)) = _
    unfold popMin at h ⊢
    cases hq : popMin q with
    | none =>
      rw [hq] at h
      cases h
      have hq0 := popMin_none hq
      subst hq0
      rw [List.nil_append]
      cases ho : popMin old with
      | none => rw [popMin_none ho]
      | some p =>
        obtain ⟨o, o'⟩ := p
        have hmem : o ∈ old := (popMin_some ho).1.mem_iff.2 List.mem_cons_self
        simp only
        rw [if_pos (before_of_lt (hT.trans_le (hold o hmem)))]
    | some p =>
      obtain ⟨e', r'⟩ := p
      rw [hq] at h
      simp only at h
      by_cases he' : e'.time < T
      · rw [popMin_append hold hq he']
        simp only
        split at h
        · next hb => cases h; rw [if_pos hb]
        · next hb => cases h; rw [if_neg hb]; rfl
      · split at h
        · next hb =>
          cases h
          cases hm : popMin (q ++ old) with
          | none =>
            have := popMin_none hm
            rw [List.append_eq_nil_iff] at this
            rw [this.1] at hq
            cases hq
          | some p =>
            obtain ⟨m, mr⟩ := p
            have hmem : m ∈ q ++ old := (popMin_some hm).1.mem_iff.2 List.mem_cons_self
            have hmT : T ≤ m.time := by
              rcases List.mem_append.1 hmem with hm | hm
              · obtain ⟨hp, hmin⟩ := popMin_some hq
                rcases List.mem_cons.1 (hp.mem_iff.1 hm) with rfl | hm
                · exact not_lt.1 he'
                · exact (not_lt.1 he').trans (hmin m hm)
              · exact hold m hm
            simp only
            rw [if_pos (before_of_lt (hT.trans_le hmT))]
        · next hb =>
          cases h
          exact absurd hT he'

/-- The start of a contact is stored only while it lasts. -/
theorem last_zero {sim : Sim K} {d : Draws K} (hv : Valid sim) (hg : Good sim d) {k : Nat} {s : St K}
    (hs : run sim d k (fresh sim) = .ok s) : ∀ a b, s.A a b = false → s.last a b = 0 := by
  have hint : ∀ {i : Int}, i ∈ sim.ids → ∀ (k : Nat) {s s' : St K}, (∀ a b, s.A a b = false → s.last a b = 0) →
      interactions sim d i k s = .ok s' → ∀ a b, s'.A a b = false → s'.last a b = 0 := by
    intro i hi k
    induction k with
    | zero => intro s s' h hs; cases hs; exact h
    | succ k ih =>
      intro s s' h hs
      unfold interactions at hs
      split at hs
      · cases hs
      next s1 h1 =>
      refine ih ?_ hs
      unfold interact at h1
      split at h1
      · cases h1
      · next s2 hn =>
        cases h1
        obtain ⟨⟨c, rfl⟩, -⟩ := newPartner_chosen hv hg hi hn
        exact h
      · next q s2 hn =>
        obtain ⟨⟨c, e⟩, -⟩ := newPartner_chosen hv hg hi hn
        simp only at e
        subst e
        split at h1
        · cases h1
        next x hx =>
        cases h1
        intro a b hab
        simp only [setAt] at hab ⊢
        split at hab
        · cases hab
        · next hne => rw [if_neg hne]; exact h a b hab
  refine run_ind hv hg (P := fun s => ∀ a b, s.A a b = false → s.last a b = 0) ?_ ?_ hs
  · intro s h a b _
    rw [(initEvents_adds _ h).2.2.2.2.1]
    rfl
  · intro s s' hI h hst
    unfold step at hst
    split at hst
    · cases hst; exact h
    split at hst
    · cases hst; exact h
    next e r hp =>
    have hmem : e ∈ s.queue := (popMin_some hp).1.mem_iff.2 List.mem_cons_self
    simp only at hst
    split at hst
    · split at hst
      · cases hst
      next s1 h1 =>
      obtain ⟨-, -, -, a1, b1, -⟩ := putActivation_adds h1
      refine hint (hI.queue e hmem).2 _ ?_ hst
      rw [a1, b1]
      exact h
    · cases hst
      intro a b hab
      simp only [finish, setAt] at hab ⊢
      split at hab
      · next hc => rw [if_pos hc]
      · next hc => rw [if_neg hc]; exact h a b hab

theorem step_lift {sim : Sim K} {d : Draws K} {s₁ : St K} (hold : ∀ e ∈ s₁.queue, sim.tEnd ≤ e.time) {s s' : St K}
    (hne : s.queue = [] → s₁.queue = []) (hs : step sim (later d s₁.count) s = .ok s') (ht : s'.t < sim.tEnd)
    (hg : Good sim (later d s₁.count)) (hv : Valid sim) (hI : Inv sim s) : step sim d (lift s₁ s) = .ok (lift s₁ s') := by
  have hmono := (step_inv hv hg hI hs).2
  unfold step at hs ⊢
  have hlt : ¬ sim.tEnd ≤ s.t := not_le.2 (hmono.trans_lt ht)
  rw [if_neg hlt] at hs
  rw [if_neg (show ¬ sim.tEnd ≤ (lift s₁ s).t from hlt)]
  cases hp : popMin s.queue with
  | none =>
    rw [hp] at hs
    cases hs
    have h1 := popMin_none hp
    have : popMin (lift s₁ s).queue = none := by
      show popMin (s.queue ++ s₁.queue) = none
      rw [h1, hne h1]
      rfl
    rw [this]
  | some p =>
    obtain ⟨e, r⟩ := p
    rw [hp] at hs
    simp only at hs
    have hmem : e ∈ s.queue := (popMin_some hp).1.mem_iff.2 List.mem_cons_self
    have het : e.time < sim.tEnd := by
      split at hs
      · split at hs
        · cases hs
        next s1 h1 =>
        obtain ⟨t1, -⟩ := putActivation_adds h1
        obtain ⟨t2, -⟩ := interactions_adds hv hg (hI.queue e hmem).2 _ hs
        rw [t2, t1] at ht
        exact ht
      · cases hs
        exact ht
    have : popMin (lift s₁ s).queue = some (e, r ++ s₁.queue) := popMin_append hold hp het
    rw [this]
    simp only
    have hs0 : ({ lift s₁ s with t := e.time, queue := r ++ s₁.queue } : St K) = lift s₁ { s with t := e.time, queue := r } := rfl
    rw [hs0]
    cases hpart : e.partner with
    | none =>
      rw [hpart] at hs
      simp only at hs ⊢
      rw [putActivation_lift]
      cases h1 : putActivation (later d s₁.count) e.id { s with t := e.time, queue := r } with
      | error e => rw [h1] at hs; cases hs
      | ok s2 =>
        rw [h1] at hs
        simp only [Except.map] at hs ⊢
        rw [interactions_lift, hs]
        rfl
    | some q =>
      rw [hpart] at hs
      cases hs
      simp only
      unfold finish lift
      simp

theorem passes_succ (sim : Sim K) (d : Draws K) : ∀ (k : Nat) (s : St K),
    passes sim d (k + 1) s = (passes sim d k s).bind (step sim d)
  | 0, s => by
    show _ = step sim d s
    unfold passes
    cases step sim d s <;> simp [passes]
  | k + 1, s => by
    rw [passes]
    conv_rhs => rw [passes]
    cases step sim d s with
    | error e => rfl
    | ok r => exact passes_succ sim d k r

theorem run_succ (sim : Sim K) (d : Draws K) (k : Nat) (s : St K) :
    run sim d (k + 1) s = (run sim d k s).bind (step sim d) := by
  unfold run
  cases initEvents d sim.ids { s with t := sim.tStart } with
  | error e => rfl
  | ok s => exact passes_succ sim d k _

/-- **C99 (partial)**.  If nobody is in contact at the end of the first run, a second call of `run` is, until the end
time, a new simulation with the next random numbers, whose contacts are added to the recorded ones.  Missing:
contacts in progress at the end of the first run. -/
theorem C99_again_partial {sim : Sim K} {d₁ d₂ : Draws K} (hv : Valid sim) (h₁ : Good sim d₁) (h₂ : Good sim d₂) {k₁ k : Nat}
    {s₁ s : St K} (hs₁ : run sim d₁ k₁ (fresh sim) = .ok s₁) (hend : sim.tEnd ≤ s₁.t) (hA : ∀ a b, s₁.A a b = false)
    (hs : run sim (later d₂ s₁.count) k (fresh sim) = .ok s) (ht : s.t < sim.tEnd) :
    ∃ s₂, run sim d₂ k s₁ = .ok s₂ ∧ s₂.t = s.t ∧ s₂.events = s₁.events ++ s.events ∧ s₂.log = s₁.log ++ s.log ∧
      s₂.A = s.A := by
  have hI₁ := run_inv hv h₁ hs₁
  have hl := last_zero hv h₁ hs₁
  have hg : Good sim (later d₂ s₁.count) :=
    ⟨fun k => h₂.activ _, fun k => h₂.inter _, fun k => h₂.target _, fun k => h₂.pick _⟩
  have hold : ∀ e ∈ s₁.queue, sim.tEnd ≤ e.time := fun e he => hend.trans (hI₁.queue e he).1
  have key : ∀ (k : Nat) {s : St K}, run sim (later d₂ s₁.count) k (fresh sim) = .ok s → s.t < sim.tEnd →
      run sim d₂ k s₁ = .ok (lift s₁ s) := by
    intro k
    induction k with
    | zero =>
      intro s hs _
      unfold run at hs ⊢
      have h0 : ({ s₁ with t := sim.tStart } : St K) = lift s₁ { fresh sim with t := sim.tStart } := by
        have e1 : s₁.A = fun _ _ => false := by funext a b; exact hA a b
        have e2 : s₁.last = fun _ _ => 0 := by funext a b; exact hl a b (hA a b)
        unfold lift fresh
        simp [e1, e2]
      rw [h0, initEvents_lift]
      split at hs
      · cases hs
      next s' hi =>
      cases hs
      rw [hi]
      rfl
    | succ k ih =>
      intro s' hs ht
      rw [run_succ] at hs ⊢
      cases hr : run sim (later d₂ s₁.count) k (fresh sim) with
      | error e => rw [hr] at hs; cases hs
      | ok s =>
        rw [hr] at hs
        have hs : step sim (later d₂ s₁.count) s = .ok s' := hs
        have hI := run_inv hv hg hr
        have hmono := (step_inv hv hg hI hs).2
        rw [ih hr (hmono.trans_lt ht)]
        refine step_lift hold ?_ hs ht hg hv hI
        intro hq
        cases hids : sim.ids with
        | nil =>
          cases hq1 : s₁.queue with
          | nil => rfl
          | cons e l =>
            have := (hI₁.queue e (by rw [hq1]; simp)).2
            rw [hids] at this
            cases this
        | cons i l =>
          have := (C67_activations hv hg hr).1
          rw [hq, hids] at this
          exact absurd this.length_eq (by simp)
  exact ⟨_, key k hs ht, rfl, rfl, rfl, rfl⟩

/-! ## The theorems apply -/

/-- In a first run until 3 individual 1 begins a contact with 0 that would last until 9; in a second run they do
not meet, whatever is drawn. -/
example : ∃ s₁, run (exSim [1, 0] 3 .uniform) (exDraws [1, 5, 3, 0, 8] []) 2 (fresh (exSim [1, 0] 3 .uniform)) = .ok s₁ ∧
    ∀ (d : Draws ℚ), Good (exSim [1, 0] 3 .uniform) d → ∀ k s₂, run (exSim [1, 0] 3 .uniform) d k s₁ = .ok s₂ →
      ∃ new, s₂.log = s₁.log ++ new ∧ ∀ c ∈ new, ¬ (c.src = 1 ∧ c.tgt = 0) := by
  have h : (match run (exSim [1, 0] 3 .uniform) (exDraws [1, 5, 3, 0, 8] []) 2 (fresh (exSim [1, 0] 3 .uniform)) with
    | .ok s => (s.log, s.t)
    | .error _ => ([], 0)) = ([⟨1, 0, 1, 9⟩], 4) := by decide +kernel
  split at h
  · next s₁ hs₁ =>
    have hl : s₁.log = [⟨1, 0, 1, 9⟩] := congrArg Prod.fst h
    have ht : s₁.t = 4 := congrArg Prod.snd h
    refine ⟨s₁, hs₁, fun d hd k s₂ hs₂ => ?_⟩
    refine C99_blocked_violated (ex_valid 3 .uniform) (ex_good _ (by decide +kernel) _ _ _) hd hs₁ ?_ hs₂ ⟨⟨1, 0, 1, 9⟩, ?_, rfl, rfl, ?_⟩
    · rw [ht]; decide +kernel
    · rw [hl]; simp
    · rw [ht]; decide +kernel
  · cases h

/-- In a first run until 3 the only contact ends at 3; a second run with the same tape adds a contact. -/
example : ∃ s₁ s₂, run (exSim [1, 0] 3 .uniform) (exDraws [1, 5, 100, 0, 2, 1, 5, 100, 0, 1] []) 2 (fresh (exSim [1, 0] 3 .uniform)) = .ok s₁ ∧
    run (exSim [1, 0] 3 .uniform) (exDraws [1, 5, 100, 0, 2, 1, 5, 100, 0, 1] []) 2 s₁ = .ok s₂ ∧
    s₂.events = [⟨1, 0, 1, 3⟩, ⟨1, 0, 1, 2⟩] := by
  have h : (match run (exSim [1, 0] 3 .uniform) (exDraws [1, 5, 100, 0, 2, 1, 5, 100, 0, 1] []) 2 (fresh (exSim [1, 0] 3 .uniform)) with
    | .ok s => (s.events, s.t, s.count, running (exSim [1, 0] 3 .uniform) s)
    | .error _ => ([], 0, 0, [])) = ([⟨1, 0, 1, 3⟩], 3, 5, []) := by decide +kernel
  have h' : (match run (exSim [1, 0] 3 .uniform) (later (exDraws [1, 5, 100, 0, 2, 1, 5, 100, 0, 1] []) 5) 2 (fresh (exSim [1, 0] 3 .uniform)) with
    | .ok s => (s.events, s.t)
    | .error _ => ([], 0)) = ([⟨1, 0, 1, 2⟩], 2) := by decide +kernel
  have hv := ex_valid 3 .uniform
  have hg := ex_good [1, 5, 100, 0, 2, 1, 5, 100, 0, 1] (by decide +kernel) [] 3 .uniform
  split at h
  · next s₁ hs₁ =>
    split at h'
    · next s hs =>
      have e1 : s₁.events = [⟨1, 0, 1, 3⟩] := congrArg Prod.fst h
      have e2 : s₁.t = 3 := congrArg (fun x => x.2.1) h
      have e3 : s₁.count = 5 := congrArg (fun x => x.2.2.1) h
      have e4 : running (exSim [1, 0] 3 .uniform) s₁ = [] := congrArg (fun x => x.2.2.2) h
      have e5 : s.events = [⟨1, 0, 1, 2⟩] := congrArg Prod.fst h'
      have e6 : s.t = 2 := congrArg Prod.snd h'
      have hA : ∀ a b, s₁.A a b = false := by
        intro a b
        have := (run_inv hv hg hs₁).adj a b
        rw [e4] at this
        simpa using this
      obtain ⟨s₂, hs₂, -, he, -⟩ := C99_again_partial (k := 2) hv hg hg hs₁ (by rw [e2]; decide +kernel) hA (by rw [e3]; exact hs)
        (by rw [e6]; decide +kernel)
      exact ⟨s₁, s₂, hs₁, hs₂, by rw [he, e1, e5]; rfl⟩
    · cases h'
  · cases h

end Verif.SynthRuns
