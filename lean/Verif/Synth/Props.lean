import Verif.Synth.Lemmas
import Mathlib.Algebra.Order.Floor.Semiring
import Mathlib.Algebra.Order.Floor.Ring
import Mathlib.Algebra.Field.Rat
import Mathlib.Algebra.Order.Ring.Rat
import Mathlib.Data.Rat.Floor
import Mathlib.Tactic.NormNum
import Mathlib.Tactic.Ring
import Mathlib.Algebra.BigOperators.Field

/-!
# Synthetic networks: properties C48 and C64 to C67
-/

set_option linter.dupNamespace false
set_option linter.unusedSectionVars false

namespace Verif.Synth

variable {K : Type} [Field K] [LinearOrder K] [IsStrictOrderedRing K]

/-! ## C48 -/

theorem apart_symm {a b : Contact K} (h : Apart a b) : Apart b a := fun e1 e2 => (h e1.symm e2.symm).symm

/-- **C48**.  After any number of passes of the loop, and for all random numbers, every recorded
contact is between two different individuals of the population and ends no earlier than it
starts, and two recorded contacts of the same ordered pair never overlap. -/
theorem C48_well_formed {sim : Sim K} {d : Draws K} (hv : Valid sim) (hg : Good sim d) {k : Nat} {s : St K}
    (hs : run sim d k (fresh sim) = .ok s) :
    (∀ c ∈ s.events, c.src ∈ sim.ids ∧ c.tgt ∈ sim.ids ∧ c.src ≠ c.tgt ∧ sim.tStart ≤ c.start ∧ c.start ≤ c.stop) ∧
      s.events.Pairwise fun a b => a.src = b.src → a.tgt = b.tgt → a.stop ≤ b.start ∨ b.stop ≤ a.start := by
  have h := run_inv hv hg hs
  refine ⟨fun c hc => ?_, ?_⟩
  · have := (h.formed c (h.log.mem_iff.2 (List.mem_append.2 (.inl hc)))).1
    exact ⟨this.src, this.tgt, this.different, this.started, this.order⟩
  · have := (h.log.pairwise_iff fun hab => apart_symm hab).1 h.apart
    exact (List.pairwise_append.1 this).1

/-- Steps that do not touch the recorded contacts. -/
theorem putActivation_events {d : Draws K} {i : Int} {s s' : St K} (hs : putActivation d i s = .ok s') :
    s'.events = s.events := by
  unfold putActivation at hs
  split at hs
  · cases hs
  · cases hs; rfl

theorem interactions_events {sim : Sim K} {d : Draws K} (hv : Valid sim) (hg : Good sim d) {i : Int} (hi : i ∈ sim.ids) :
    ∀ (k : Nat) {s s' : St K}, interactions sim d i k s = .ok s' → s'.events = s.events
  | 0, s, s', hs => by cases hs; rfl
  | k + 1, s, s', hs => by
    unfold interactions at hs
    split at hs
    · cases hs
    · next s1 h1 =>
      rw [interactions_events hv hg hi k hs]
      unfold interact at h1
      split at h1
      · cases h1
      · next hn =>
        cases h1
        obtain ⟨⟨c, e⟩, -⟩ := newPartner_chosen hv hg hi hn
        simp only at e
        rw [e]
      · next hn =>
        obtain ⟨⟨c, e⟩, -⟩ := newPartner_chosen hv hg hi hn
        simp only at e
        subst e
        split at h1
        · cases h1
        · cases h1; rfl

theorem step_events {sim : Sim K} {d : Draws K} (hv : Valid sim) (hg : Good sim d) {s s' : St K} (h : Inv sim s)
    (hs : step sim d s = .ok s') :
    s'.events = s.events ∨ s.t < sim.tEnd ∧ ∃ c, s'.events = s.events ++ [c] ∧ s.t ≤ c.stop := by
  unfold step at hs
  split at hs
  · cases hs; exact .inl rfl
  next hlt =>
  split at hs
  · cases hs; exact .inl rfl
  next e r hp =>
  obtain ⟨ht, hid, -, -⟩ := popped h hp
  simp only at hs
  split at hs
  · split at hs
    · cases hs
    next s1 h1 =>
    rw [interactions_events hv hg hid _ hs, putActivation_events h1]
    exact .inl rfl
  · cases hs
    exact .inr ⟨not_le.1 hlt, _, rfl, ht⟩

/-- A property kept by every pass holds after a run. -/
theorem run_induction {sim : Sim K} {d : Draws K} (hv : Valid sim) (hg : Good sim d) {P : St K → Prop}
    (h0 : ∀ s, Inv sim s → s.events = [] → P s)
    (h1 : ∀ s s', Inv sim s → P s → step sim d s = .ok s' → P s') {k : Nat} {s : St K}
    (hs : run sim d k (fresh sim) = .ok s) : P s := by
  unfold run at hs
  split at hs
  · cases hs
  next s1 hi =>
  have hev : ∀ (l : List Int) {s s' : St K}, initEvents d l s = .ok s' → s'.events = s.events := by
    intro l
    induction l with
    | nil => intro s s' h; cases h; rfl
    | cons i l ih =>
      intro s s' h
      unfold initEvents at h
      split at h
      · cases h
      · next s2 h2 => rw [ih h, putActivation_events h2]
  have hpass : ∀ (k : Nat) {s s' : St K}, Inv sim s → P s → passes sim d k s = .ok s' → P s' := by
    intro k
    induction k with
    | zero => intro s s' _ h hs; cases hs; exact h
    | succ k ih =>
      intro s s' hI h hs
      unfold passes at hs
      split at hs
      · cases hs
      · next s2 h2 => exact ih (step_inv hv hg hI h2).1 (h1 _ _ hI h h2) hs
  have hI := (initEvents_inv hg sim.ids (fun _ h => h) (fresh_inv sim) hi).1
  exact hpass k hI (h0 _ hI (hev _ hi)) hs

/-- **C48**.  The contacts are recorded in the order in which they end, and all but the last one
end before the end of the simulation. -/
theorem C48_order {sim : Sim K} {d : Draws K} (hv : Valid sim) (hg : Good sim d) {k : Nat} {s : St K}
    (hs : run sim d k (fresh sim) = .ok s) :
    s.events.Pairwise (fun a b => a.stop ≤ b.stop) ∧ ∀ c ∈ s.events.dropLast, c.stop < sim.tEnd := by
  refine run_induction hv hg (P := fun s => s.events.Pairwise (fun a b => a.stop ≤ b.stop) ∧
    ∀ c ∈ s.events.dropLast, c.stop < sim.tEnd) ?_ ?_ hs
  · intro s _ h
    rw [h]
    simp
  · intro s s' hI h hst
    rcases step_events hv hg hI hst with e | ⟨hlt, c, e, hc⟩
    · rw [e]; exact h
    · rw [e]
      refine ⟨List.pairwise_append.2 ⟨h.1, List.pairwise_singleton _ _, ?_⟩, ?_⟩
      · intro a ha b hb
        rw [List.mem_singleton] at hb
        subst hb
        exact (hI.ended a ha).trans hc
      · intro a ha
        rw [List.dropLast_concat] at ha
        exact (hI.ended a ha).trans_lt hlt

/-! ## C64: nothing is lost and nothing is invented -/

/-- **C64**.  The contacts that have begun, each with the end drawn for it, are the recorded ones
and the ones still in progress, each exactly once; the former have ended, the latter have not; and
the adjacency matrix shows the pairs in contact. -/
theorem C64_complete {sim : Sim K} {d : Draws K} (hv : Valid sim) (hg : Good sim d) {k : Nat} {s : St K}
    (hs : run sim d k (fresh sim) = .ok s) :
    ∃ now : List (Contact K), s.log.Perm (s.events ++ now) ∧ (∀ c ∈ s.events, c.stop ≤ s.t) ∧
      (∀ c ∈ now, c.start ≤ s.t ∧ s.t ≤ c.stop) ∧
      (∀ a b : Nat, s.A a b = true ↔ ∃ c ∈ now, c.src = a ∧ c.tgt = b) ∧
      now.Pairwise fun a b => ¬ (a.src = b.src ∧ a.tgt = b.tgt) := by
  have h := run_inv hv hg hs
  refine ⟨running sim s, h.log, h.ended, fun c hc => ⟨?_, ?_⟩, h.adj, h.once⟩
  · exact (h.formed c (h.log.mem_iff.2 (List.mem_append.2 (.inr hc)))).2
  · obtain ⟨e, he, -, -, -, e2⟩ := running_mem hc
    rw [e2]
    exact (h.queue e he).1

/-! ## C65: partners -/

/-- **C65**.  Partners respect the chosen method: the same group, or a group with a probability
that is not zero, for time-dependent probabilities at the time when the contact begins. -/
theorem C65_partners {sim : Sim K} {d : Draws K} (hv : Valid sim) (hg : Good sim d) {k : Nat} {s : St K}
    (hs : run sim d k (fresh sim) = .ok s) {c : Contact K} (hc : c ∈ s.events) :
    match sim.method with
    | .uniform => True
    | .withinGroup => groupOf sim c.tgt = groupOf sim c.src
    | .block probs => probs (groupOf sim c.src).toNat (groupOf sim c.tgt).toNat ≠ 0
    | .blockMod f => 0 < f c.start (groupOf sim c.src).toNat (groupOf sim c.tgt).toNat
    | .other => False := by
  have h := run_inv hv hg hs
  exact (h.formed c (h.log.mem_iff.2 (List.mem_append.2 (.inl hc)))).1.allowed

/-! ## C66: the simulation does not fail and ends -/

theorem sameSet_false {a b : List Int} (hba : ∀ x ∈ b, x ∈ a) (h : sameSet a b ≠ true) : ∃ x ∈ a, x ∉ b := by
  by_contra hc
  push_neg at hc
  apply h
  unfold sameSet
  rw [Bool.and_eq_true, List.all_eq_true, List.all_eq_true]
  exact ⟨fun x hx => decide_eq_true (hc x hx), fun x hx => decide_eq_true (hba x hx)⟩

theorem drawPartner_ok (d : Draws K) {potential un : List Int} (s : St K) (h : ∃ x ∈ potential, x ∉ un) :
    ∃ r, drawPartner d potential un s = .ok r := by
  obtain ⟨x, h1, h2⟩ := h
  unfold drawPartner
  split
  · next hn =>
    rw [List.filter_eq_nil_iff] at hn
    exact absurd (decide_eq_true h2) (hn x h1)
  · exact ⟨_, rfl⟩

theorem drawFromBlock_ok {sim : Sim K} {d : Draws K} (hv : Valid sim) (hg : Good sim d) {p : Nat → K} (i : Int) (s : St K)
    (h1 : ∀ g < sim.nGroups, 0 ≤ p g) (h2 : ∑ g ∈ Finset.range sim.nGroups, p g = 1) :
    ∃ r, drawFromBlock sim d p i s = .ok r := by
  unfold drawFromBlock
  rw [if_neg]
  · simp only
    split
    · next hm =>
      obtain ⟨k, hk, hkg⟩ := hv.groupCovers (hg.target s.count p h1 h2).1
      have : (k : Int) ∈ members sim (d.targetGroup s.count p : Nat) := mem_members.2 ⟨k, hk, hkg, rfl⟩
      rw [hm] at this
      cases this
    · next c cs hm =>
      split
      · exact ⟨_, rfl⟩
      · next hall =>
        apply drawPartner_ok
        by_contra hc
        push_neg at hc
        apply hall
        rw [List.all_eq_true]
        intro x hx
        rw [decide_eq_true_eq]
        rcases List.mem_cons.1 hx with rfl | hx
        · exact List.mem_cons_self
        · exact hc x hx
  · simp only [Bool.or_eq_true, List.any_eq_true, decide_eq_true_eq, not_or, not_exists, not_and, List.mem_range,
      not_lt, not_not]
    exact ⟨h1, h2⟩

theorem newPartner_ok {sim : Sim K} {d : Draws K} (hv : Valid sim) (hg : Good sim d) (hd : Drawable sim d) {i : Int}
    (hi : i ∈ sim.ids) {s : St K} (h : Inv sim s) : ∃ r, newPartner sim d i s = .ok r := by
  have bi := hv.bounds hi
  have hw : wrap sim.n i = i.toNat := wrap_nonneg bi.1
  have hin : i.toNat < sim.n := by omega
  have hpr := hd.probs
  have hgi : (sim.group i.toNat).toNat < sim.nGroups := by
    have := hv.groupBound hin
    have := hv.groups _ hin
    omega
  unfold newPartner
  split
  · simp only
    split
    · exact ⟨_, rfl⟩
    · next hne =>
      apply drawPartner_ok
      apply sameSet_false _ hne
      intro x hx
      rcases mem_unPartners.1 hx with rfl | ⟨c, hc, -, rfl⟩
      · exact hi
      · exact hv.covers hc
  · next hm =>
    simp only
    split
    · exact ⟨_, rfl⟩
    · next hne =>
      apply drawPartner_ok
      apply sameSet_false _ hne
      intro x hx
      rw [mem_members, hw]
      rcases mem_unPartners.1 hx with rfl | ⟨c, hc, hA, rfl⟩
      · exact ⟨x.toNat, hin, rfl, by omega⟩
      · rw [hw] at hA
        obtain ⟨ct, hct, e1, e2⟩ := (h.adj _ _).1 hA
        have := (h.runFormed hct).allowed
        unfold Allowed at this
        rw [hm] at this
        simp only [groupOf] at this
        rw [e1, e2, Int.toNat_natCast, Int.toNat_natCast] at this
        exact ⟨c, hc, this, rfl⟩
  · next probs hm =>
    rw [hm] at hpr
    simp only at hpr ⊢
    rw [hw]
    obtain ⟨hnn, b, hb, hpos⟩ := hpr _ hgi
    have htot : 0 < ∑ g ∈ Finset.range sim.nGroups, probs (sim.group i.toNat).toNat g :=
      Finset.sum_pos' (fun g hg => hnn g (Finset.mem_range.1 hg)) ⟨b, Finset.mem_range.2 hb, hpos⟩
    rw [if_neg htot.ne']
    apply drawFromBlock_ok hv hg
    · intro g hgl
      exact div_nonneg (hnn g hgl) htot.le
    · rw [← Finset.sum_div, div_self htot.ne']
  · next f hm =>
    rw [hm] at hpr
    simp only at hpr ⊢
    rw [hw]
    obtain ⟨hnn, hs⟩ := hpr s.t _ hgi
    split
    · exact ⟨_, rfl⟩
    · next h0 =>
      exact drawFromBlock_ok hv hg _ _ hnn (hs.resolve_right h0)
  · next hm =>
    rw [hm] at hpr
    exact hpr.elim

theorem interactions_ok {sim : Sim K} {d : Draws K} (hv : Valid sim) (hg : Good sim d) (hd : Drawable sim d) {i : Int}
    (hi : i ∈ sim.ids) : ∀ (k : Nat) {s : St K}, Inv sim s → ∃ s', interactions sim d i k s = .ok s'
  | 0, s, _ => ⟨s, rfl⟩
  | k + 1, s, h => by
    have : ∃ s', interact sim d i s = .ok s' := by
      obtain ⟨⟨o, s1⟩, h1⟩ := newPartner_ok hv hg hd hi h
      unfold interact
      rw [h1]
      cases o with
      | none => exact ⟨_, rfl⟩
      | some q =>
        obtain ⟨x, hx⟩ := Option.isSome_iff_exists.1 (hd.inter s1.count i s1.t)
        simp only [hx]
        exact ⟨_, rfl⟩
    obtain ⟨s', h'⟩ := this
    unfold interactions
    rw [h']
    exact interactions_ok hv hg hd hi k (interact_inv hv hg hi h h').1

theorem putActivation_ok {sim : Sim K} {d : Draws K} (hd : Drawable sim d) (i : Int) (s : St K) :
    ∃ s', putActivation d i s = .ok s' := by
  obtain ⟨x, hx⟩ := Option.isSome_iff_exists.1 (hd.activ s.count i s.t)
  unfold putActivation
  rw [hx]
  exact ⟨_, rfl⟩

theorem popped_inv {sim : Sim K} {s : St K} (h : Inv sim s) {e : Ev K} {r : List (Ev K)}
    (hp : popMin s.queue = some (e, r)) (hpart : e.partner = none) : Inv sim { s with t := e.time, queue := r } := by
  obtain ⟨ht, hid, hr, hrun⟩ := popped h hp
  have hco : contactOf sim.n s.last e = none := by
    unfold contactOf
    rw [hpart]
    rfl
  rw [hco] at hrun
  have hrun : (running sim s).Perm (running sim { s with t := e.time, queue := r }) := hrun
  refine ⟨h.time.trans ht, hr, h.log.trans (List.Perm.append_left _ hrun), ?_, h.apart, ?_, ?_,
    perm_pairs hrun h.once⟩
  · intro c hc
    exact ⟨(h.formed c hc).1, (h.formed c hc).2.trans ht⟩
  · intro c hc
    exact (h.ended c hc).trans ht
  · intro a b
    rw [show ({ s with t := e.time, queue := r } : St K).A a b = s.A a b from rfl, h.adj]
    exact exists_congr fun c => and_congr_left fun _ => hrun.mem_iff

theorem step_ok {sim : Sim K} {d : Draws K} (hv : Valid sim) (hg : Good sim d) (hd : Drawable sim d) {s : St K}
    (h : Inv sim s) : ∃ s', step sim d s = .ok s' := by
  unfold step
  split
  · exact ⟨_, rfl⟩
  split
  · exact ⟨_, rfl⟩
  next e r hp =>
  simp only
  split
  · next hpart =>
    obtain ⟨-, hid, -, -⟩ := popped h hp
    have hmid := popped_inv h hp hpart
    obtain ⟨s1, h1⟩ := putActivation_ok hd e.id { s with t := e.time, queue := r }
    rw [h1]
    exact interactions_ok hv hg hd hid _ (putActivation_inv hg hid hmid h1).1
  · exact ⟨_, rfl⟩

/-- **C66**.  With a proper population and proper probabilities no exception is raised, whatever is
drawn, and nobody is searched for in vain. -/
theorem C66_no_failure {sim : Sim K} {d : Draws K} (hv : Valid sim) (hg : Good sim d) (hd : Drawable sim d) (k : Nat) :
    ∃ s, run sim d k (fresh sim) = .ok s := by
  have hinit : ∀ (l : List Int) (s : St K), ∃ s', initEvents d l s = .ok s' := by
    intro l
    induction l with
    | nil => exact fun s => ⟨s, rfl⟩
    | cons i l ih =>
      intro s
      obtain ⟨s1, h1⟩ := putActivation_ok hd i s
      unfold initEvents
      rw [h1]
      exact ih s1
  have hpass : ∀ (k : Nat) (s : St K), Inv sim s → ∃ s', passes sim d k s = .ok s' := by
    intro k
    induction k with
    | zero => exact fun s _ => ⟨s, rfl⟩
    | succ k ih =>
      intro s hI
      obtain ⟨s1, h1⟩ := step_ok hv hg hd hI
      unfold passes
      rw [h1]
      exact ih s1 (step_inv hv hg hI h1).1
  obtain ⟨s1, h1⟩ := hinit sim.ids (fresh sim)
  have h1' : initEvents d sim.ids { fresh sim with t := sim.tStart } = .ok s1 := h1
  unfold run
  rw [h1']
  exact hpass k s1 (initEvents_inv hg sim.ids (fun _ h => h) (fresh_inv sim) h1).1

/-! ## C67: everybody stays active -/

/-- Individuals with an activation in the queue. -/
def waiting (s : St K) : List Int := (s.queue.filter fun e => e.partner.isNone).map (·.id)

theorem interactions_waiting {sim : Sim K} {d : Draws K} (hv : Valid sim) (hg : Good sim d) {i : Int} (hi : i ∈ sim.ids) :
    ∀ (k : Nat) {s s' : St K}, interactions sim d i k s = .ok s' → waiting s' = waiting s
  | 0, s, s', hs => by cases hs; rfl
  | k + 1, s, s', hs => by
    unfold interactions at hs
    split at hs
    · cases hs
    · next s1 h1 =>
      rw [interactions_waiting hv hg hi k hs]
      unfold interact at h1
      split at h1
      · cases h1
      · next hn =>
        cases h1
        obtain ⟨⟨c, e⟩, -⟩ := newPartner_chosen hv hg hi hn
        simp only at e
        rw [e]
        rfl
      · next hn =>
        obtain ⟨⟨c, e⟩, -⟩ := newPartner_chosen hv hg hi hn
        simp only at e
        subst e
        split at h1
        · cases h1
        · cases h1
          unfold waiting
          rw [List.filter_cons_of_neg (by simp)]

theorem putActivation_waiting {d : Draws K} {i : Int} {s s' : St K} (hs : putActivation d i s = .ok s') :
    waiting s' = i :: waiting s := by
  unfold putActivation at hs
  split at hs
  · cases hs
  · cases hs
    unfold waiting
    rw [List.filter_cons_of_pos (by simp)]
    rfl

/-- **C67**.  At every moment every individual has exactly one activation ahead, not in the past. -/
theorem C67_activations {sim : Sim K} {d : Draws K} (hv : Valid sim) (hg : Good sim d) {k : Nat} {s : St K}
    (hs : run sim d k (fresh sim) = .ok s) :
    ((s.queue.filter fun e => e.partner.isNone).map (·.id)).Perm sim.ids ∧ ∀ e ∈ s.queue, s.t ≤ e.time := by
  refine ⟨?_, fun e he => ((run_inv hv hg hs).queue e he).1⟩
  unfold run at hs
  split at hs
  · cases hs
  next s1 hi =>
  have hinit : ∀ (l : List Int) {s s' : St K}, initEvents d l s = .ok s' → (waiting s').Perm (l ++ waiting s) := by
    intro l
    induction l with
    | nil => intro s s' h; cases h; exact List.Perm.refl _
    | cons i l ih =>
      intro s s' h
      unfold initEvents at h
      split at h
      · cases h
      · next s2 h2 =>
        refine (ih h).trans ?_
        rw [putActivation_waiting h2]
        exact List.perm_middle
  have hstep : ∀ {s s' : St K}, Inv sim s → (waiting s).Perm sim.ids → step sim d s = .ok s' →
      (waiting s').Perm sim.ids := by
    intro s s' hI h hst
    unfold step at hst
    split at hst
    · cases hst; exact h
    split at hst
    · cases hst; exact h
    next e r hp =>
    obtain ⟨-, hid, -, -⟩ := popped hI hp
    have hw := ((popMin_some hp).1.filter fun e => e.partner.isNone).map (·.id)
    simp only at hst
    split at hst
    · next hpart =>
      rw [List.filter_cons_of_pos (by simp [hpart])] at hw
      split at hst
      · cases hst
      next s2 h2 =>
      rw [interactions_waiting hv hg hid _ hst, putActivation_waiting h2]
      exact hw.symm.trans h
    · next q hpart =>
      rw [List.filter_cons_of_neg (by simp [hpart])] at hw
      cases hst
      exact hw.symm.trans h
  have hpass : ∀ (k : Nat) {s s' : St K}, Inv sim s → (waiting s).Perm sim.ids → passes sim d k s = .ok s' →
      (waiting s').Perm sim.ids := by
    intro k
    induction k with
    | zero => intro s s' _ h hs; cases hs; exact h
    | succ k ih =>
      intro s s' hI h hs
      unfold passes at hs
      split at hs
      · cases hs
      · next s2 h2 => exact ih (step_inv hv hg hI h2).1 (hstep hI h h2) hs
  have hI := (initEvents_inv hg sim.ids (fun _ h => h) (fresh_inv sim) hi).1
  refine hpass k hI ?_ hs
  have := hinit sim.ids hi
  have e0 : waiting ({ fresh sim with t := sim.tStart } : St K) = [] := rfl
  rwa [e0, List.append_nil] at this

/-- **C67**.  With the methods that draw uniformly, an individual that is activated finds no partner
only if it is in contact with everybody, or everybody else of its group. -/
theorem C67_partner_found {sim : Sim K} {d : Draws K} (hv : Valid sim) {s s' : St K} {i : Int} (hi : i ∈ sim.ids) (h : newPartner sim d i s = .ok (none, s')) :
    (sim.method = .uniform → ∀ q ∈ sim.ids, q ≠ i → s.A i.toNat q.toNat = true) ∧
    (sim.method = .withinGroup → ∀ q ∈ sim.ids, q ≠ i → groupOf sim q = groupOf sim i → s.A i.toNat q.toNat = true) := by
  have hw : wrap sim.n i = i.toNat := wrap_nonneg (hv.bounds hi).1
  have hdp : ∀ {pot un : List Int}, (if sameSet pot un then .ok (none, s) else drawPartner d pot un s) = .ok (none, s') →
      ∀ x ∈ pot, x ∈ un := by
    intro pot un h
    split at h
    · next hss =>
      unfold sameSet at hss
      rw [Bool.and_eq_true, List.all_eq_true] at hss
      exact fun x hx => of_decide_eq_true (hss.1 x hx)
    · unfold drawPartner at h
      split at h <;> cases h
  have hun : ∀ q : Int, 0 ≤ q → q ≠ i → q ∈ unPartners sim.n s i → s.A i.toNat q.toNat = true := by
    intro q _ hne hq
    rcases mem_unPartners.1 hq with e | ⟨c, -, hA, rfl⟩
    · exact absurd e hne
    · rw [hw] at hA
      rw [Int.toNat_natCast]
      exact hA
  unfold newPartner at h
  constructor
  · intro hm q hq hne
    rw [hm] at h
    exact hun q (hv.bounds hq).1 hne (hdp h q hq)
  · intro hm q hq hne hgr
    rw [hm] at h
    have bq := hv.bounds hq
    refine hun q bq.1 hne (hdp h q (mem_members.2 ⟨q.toNat, by omega, ?_, by omega⟩))
    rw [hw]
    exact hgr

variable [FloorSemiring K]

/-- Number of passes that an entry of the queue can still cause. -/
def weight (sim : Sim K) (δ : K) (e : Ev K) : Nat :=
  match e.partner with
  | none => (sim.m + 1) * (⌈(sim.tEnd - e.time) / δ⌉₊ + 1)
  | some _ => 1

def budget (sim : Sim K) (δ : K) (s : St K) : Nat := (s.queue.map (weight sim δ)).sum

theorem interactions_budget {sim : Sim K} {d : Draws K} (hv : Valid sim) (hg : Good sim d) (δ : K) {i : Int}
    (hi : i ∈ sim.ids) : ∀ (k : Nat) {s s' : St K}, interactions sim d i k s = .ok s' →
      budget sim δ s' ≤ budget sim δ s + k
  | 0, s, s', hs => by cases hs; exact le_rfl
  | k + 1, s, s', hs => by
    unfold interactions at hs
    split at hs
    · cases hs
    · next s1 h1 =>
      refine (interactions_budget hv hg δ hi k hs).trans ?_
      suffices budget sim δ s1 ≤ budget sim δ s + 1 by omega
      unfold interact at h1
      split at h1
      · cases h1
      · next hn =>
        cases h1
        obtain ⟨⟨c, e⟩, -⟩ := newPartner_chosen hv hg hi hn
        simp only at e
        subst e
        exact Nat.le_succ _
      · next hn =>
        obtain ⟨⟨c, e⟩, -⟩ := newPartner_chosen hv hg hi hn
        simp only at e
        subst e
        split at h1
        · cases h1
        · cases h1
          unfold budget
          simp only [List.map_cons, List.sum_cons, weight]
          omega

theorem interactions_time {sim : Sim K} {d : Draws K} (hv : Valid sim) (hg : Good sim d) {i : Int} (hi : i ∈ sim.ids)
    (k : Nat) {s s' : St K} (h : Inv sim s) (hs : interactions sim d i k s = .ok s') : s'.t = s.t :=
  (interactions_inv hv hg hi k h hs).2

theorem step_budget {sim : Sim K} {d : Draws K} (hv : Valid sim) (hg : Good sim d) {δ : K} (hδ : 0 < δ)
    (hδa : ∀ k i t x, d.activ k i t = some x → δ ≤ x) {s s' : St K} (h : Inv sim s) (hs : step sim d s = .ok s')
    (hnd : done sim s = false) : done sim s' = true ∨ budget sim δ s' < budget sim δ s := by
  unfold done at hnd
  rw [Bool.or_eq_false_iff, decide_eq_false_iff_not] at hnd
  unfold step at hs
  rw [if_neg hnd.1] at hs
  split at hs
  · next hp =>
    rw [popMin_none hp] at hnd
    cases hnd.2
  next e r hp =>
  obtain ⟨ht, hid, -, -⟩ := popped h hp
  have hb : budget sim δ s = weight sim δ e + (r.map (weight sim δ)).sum := by
    unfold budget
    rw [((popMin_some hp).1.map (weight sim δ)).sum_eq, List.map_cons, List.sum_cons]
  simp only at hs
  split at hs
  · next hpart =>
    split at hs
    · cases hs
    next s1 h1 =>
    have hmid := popped_inv h hp hpart
    have i1 := putActivation_inv hg hid hmid h1
    have htt := interactions_time hv hg hid _ i1.1 hs
    rw [i1.2] at htt
    by_cases hend : sim.tEnd ≤ e.time
    · left
      unfold done
      rw [htt]
      simp [hend]
    · right
      have hbs := interactions_budget hv hg δ hid _ hs
      rw [hb]
      unfold putActivation at h1
      split at h1
      · cases h1
      next x hx =>
      cases h1
      have hb1 : budget sim δ { s with t := e.time, queue := ⟨e.time + x, e.id, none⟩ :: r, count := s.count + 1 } =
          (sim.m + 1) * (⌈(sim.tEnd - (e.time + x)) / δ⌉₊ + 1) + (r.map (weight sim δ)).sum := by
        unfold budget
        simp only [List.map_cons, List.sum_cons, weight]
      have hbs : budget sim δ s' ≤ (sim.m + 1) * (⌈(sim.tEnd - (e.time + x)) / δ⌉₊ + 1) +
          (r.map (weight sim δ)).sum + sim.m := hb1 ▸ hbs
      have hw : weight sim δ e = (sim.m + 1) * (⌈(sim.tEnd - e.time) / δ⌉₊ + 1) := by
        unfold weight
        rw [hpart]
      have hceil : ⌈(sim.tEnd - (e.time + x)) / δ⌉₊ + 1 ≤ ⌈(sim.tEnd - e.time) / δ⌉₊ := by
        rw [Nat.add_one_le_iff, Nat.lt_ceil]
        have hq : 0 < (sim.tEnd - e.time) / δ := div_pos (sub_pos.2 (not_le.1 hend)) hδ
        rcases le_or_gt ((sim.tEnd - (e.time + x)) / δ) 0 with hle | hgt
        · rw [Nat.ceil_eq_zero.2 hle]
          simpa using hq
        · have h3 := Nat.ceil_lt_add_one hgt.le
          refine h3.trans_le ?_
          rw [div_add_one hδ.ne']
          apply div_le_div_of_nonneg_right _ hδ.le
          have := hδa _ _ _ _ hx
          linarith
      rw [hw]
      have := Nat.mul_le_mul_left (sim.m + 1) hceil
      have e2 : (sim.m + 1) * (⌈(sim.tEnd - e.time) / δ⌉₊ + 1) = (sim.m + 1) * ⌈(sim.tEnd - e.time) / δ⌉₊ + (sim.m + 1) := by
        ring
      omega
  · next q hpart =>
    cases hs
    right
    rw [hb]
    have : weight sim δ e = 1 := by
      unfold weight
      rw [hpart]
    rw [this]
    unfold budget finish
    simp only
    omega

theorem passes_done {sim : Sim K} {d : Draws K} (hv : Valid sim) (hg : Good sim d) {δ : K} (hδ : 0 < δ)
    (hδa : ∀ k i t x, d.activ k i t = some x → δ ≤ x) :
    ∀ (k : Nat) {s s' : St K}, Inv sim s → (done sim s = true ∨ budget sim δ s < k) →
      passes sim d k s = .ok s' → done sim s' = true
  | 0, s, s', _, hk, hs => by
    cases hs
    exact hk.resolve_right (Nat.not_lt_zero _)
  | k + 1, s, s', hI, hk, hs => by
    unfold passes at hs
    split at hs
    · cases hs
    next s1 h1 =>
    refine passes_done hv hg hδ hδa k (step_inv hv hg hI h1).1 ?_ hs
    cases hdn : done sim s with
    | true =>
      left
      have : s1 = s := by
        unfold done at hdn
        unfold step at h1
        split at h1
        · cases h1; rfl
        · next hlt =>
          rw [Bool.or_eq_true, decide_eq_true_eq] at hdn
          have hq := List.isEmpty_iff.1 (hdn.resolve_left hlt)
          rw [hq] at h1
          simp only [popMin] at h1
          cases h1; rfl
      rw [this]
      exact hdn
    | false =>
      rw [hdn] at hk
      have hk := hk.resolve_left (by simp)
      rcases step_budget hv hg hδ hδa hI h1 hdn with h | h
      · exact .inl h
      · exact .inr (by omega)

/-- **C66**.  If no time between two activations is shorter than `δ`, the simulation ends after at
most `N (m + 1) (⌈(t_end - t_start) / δ⌉ + 1) + 1` passes of its loop. -/
theorem C66_ends {sim : Sim K} {d : Draws K} (hv : Valid sim) (hg : Good sim d) {δ : K} (hδ : 0 < δ)
    (hδa : ∀ k i t x, d.activ k i t = some x → δ ≤ x) {s : St K}
    (hs : run sim d (sim.n * ((sim.m + 1) * (⌈(sim.tEnd - sim.tStart) / δ⌉₊ + 1)) + 1) (fresh sim) = .ok s) :
    sim.tEnd ≤ s.t ∨ s.queue = [] := by
  suffices done sim s = true by
    unfold done at this
    rw [Bool.or_eq_true, decide_eq_true_eq] at this
    exact this.imp_right List.isEmpty_iff.1
  unfold run at hs
  split at hs
  · cases hs
  next s1 h1 =>
  have hI := initEvents_inv hg sim.ids (fun _ h => h) (fresh_inv sim) h1
  refine passes_done hv hg hδ hδa _ hI.1 (.inr ?_) hs
  have hb : ∀ (l : List Int) {s s' : St K}, s.t = sim.tStart → initEvents d l s = .ok s' →
      budget sim δ s' ≤ budget sim δ s + l.length * ((sim.m + 1) * (⌈(sim.tEnd - sim.tStart) / δ⌉₊ + 1)) := by
    intro l
    induction l with
    | nil => intro s s' _ h; cases h; simp
    | cons i l ih =>
      intro s s' hst h
      unfold initEvents at h
      split at h
      · cases h
      next s2 h2 =>
      unfold putActivation at h2
      split at h2
      · cases h2
      next x hx =>
      cases h2
      have := ih (s := { s with queue := ⟨s.t + x, i, none⟩ :: s.queue, count := s.count + 1 }) hst h
      refine this.trans ?_
      have hbb : budget sim δ { s with queue := ⟨s.t + x, i, none⟩ :: s.queue, count := s.count + 1 } =
          (sim.m + 1) * (⌈(sim.tEnd - (s.t + x)) / δ⌉₊ + 1) + budget sim δ s := by
        unfold budget
        simp only [List.map_cons, List.sum_cons, weight]
      rw [hbb]
      have hc : ⌈(sim.tEnd - (s.t + x)) / δ⌉₊ ≤ ⌈(sim.tEnd - sim.tStart) / δ⌉₊ := by
        apply Nat.ceil_le_ceil
        apply div_le_div_of_nonneg_right _ hδ.le
        have := hg.activ _ _ _ _ hx
        linarith
      have := Nat.mul_le_mul_left (sim.m + 1) (Nat.add_le_add_right hc 1)
      rw [List.length_cons, Nat.add_one_mul l.length]
      generalize (sim.m + 1) * (⌈(sim.tEnd - (s.t + x)) / δ⌉₊ + 1) = u at this ⊢
      generalize (sim.m + 1) * (⌈(sim.tEnd - sim.tStart) / δ⌉₊ + 1) = v at this ⊢
      omega
  have := hb sim.ids (s := { fresh sim with t := sim.tStart }) rfl h1
  have hz : budget sim δ ({ fresh sim with t := sim.tStart } : St K) = 0 := rfl
  rw [hz] at this
  unfold Sim.n
  omega

omit [FloorSemiring K]

/-! ## Examples and violations -/

/-- Two individuals; the times come from a list. -/
def exSim (ids : List Int) (tEnd : ℚ) (method : Method ℚ) : Sim ℚ :=
  { ids := ids, group := fun _ => 0, tStart := 0, tEnd := tEnd, m := 1, method := method }

def exDraws (times : List ℚ) (picks : List Int) : Draws ℚ :=
  { activ := fun k _ _ => some (times.getD k 100)
    inter := fun k _ _ => some (times.getD k 100)
    targetGroup := fun _ p => if 0 < p 0 then 0 else 1
    pick := fun k l => if picks.getD k 0 ∈ l then picks.getD k 0 else l.headD 0 }

theorem ex_valid (tEnd : ℚ) (method : Method ℚ) : Valid (exSim [1, 0] tEnd method) where
  accepted := by
    have : (exSim [1, 0] tEnd method).accepted = (exSim [1, 0] 0 .uniform).accepted := rfl
    rw [this]
    decide +kernel
  ids := by
    intro i hi
    have h : ∀ j ∈ ([1, 0] : List Int), 0 ≤ j := by decide
    exact h i hi
  groups := fun _ _ => le_rfl

theorem ex_groups (tEnd : ℚ) (method : Method ℚ) : (exSim [1, 0] tEnd method).nGroups = 1 := by
  have : (exSim [1, 0] tEnd method).nGroups = (exSim [1, 0] 0 .uniform).nGroups := rfl
  rw [this]
  decide +kernel

theorem ex_good (times : List ℚ) (ht : ∀ x ∈ times, 0 ≤ x) (picks : List Int) (tEnd : ℚ) (method : Method ℚ) :
    Good (exSim [1, 0] tEnd method) (exDraws times picks) where
  activ := by
    rintro k i t x ⟨rfl⟩
    rw [List.getD_eq_getElem?_getD]
    cases h : times[k]? with
    | none => norm_num
    | some y => exact ht y (List.mem_of_getElem? h)
  inter := by
    rintro k i t x ⟨rfl⟩
    rw [List.getD_eq_getElem?_getD]
    cases h : times[k]? with
    | none => norm_num
    | some y => exact ht y (List.mem_of_getElem? h)
  target := by
    intro k p _ hs
    rw [ex_groups] at hs ⊢
    rw [Finset.sum_range_one] at hs
    have : (0 : ℚ) < p 0 := by rw [hs]; exact one_pos
    simp [exDraws, this]
  pick := by
    intro k l hl
    unfold exDraws
    simp only
    split
    · next h => exact h
    · cases l with
      | nil => exact absurd rfl hl
      | cons a l => simp

/-- A run with recorded contacts in both directions, in three passes and more. -/
example : (match run (exSim [1, 0] 10 .uniform) (exDraws [1, 2, 100, 0, 3, 100, 0, 4] []) 4 (fresh (exSim [1, 0] 10 .uniform)) with
    | .ok s => decide (s.events = [⟨1, 0, 1, 4⟩, ⟨0, 1, 2, 6⟩]) && decide (s.t = 6)
    | .error _ => false) = true := by decide +kernel

/-- Probabilities that can be drawn from. -/
example (tEnd : ℚ) : Drawable (exSim [1, 0] tEnd (.block fun _ _ => 2)) (exDraws [] []) where
  activ := fun _ _ _ => rfl
  inter := fun _ _ _ => rfl
  probs := by
    intro a ha
    refine ⟨fun b _ => by norm_num, a, ha, by norm_num⟩

/-- **C48** does not survive a second `run` of the same object: it starts again at the first time
and records the same contacts once more. -/
theorem C48_second_run_violated :
    let sim := exSim [1, 0] 3 .uniform
    let d := exDraws [1, 100, 100, 0, 1, 100, 0, 100, 1, 100, 100, 0, 1] []
    Valid sim ∧ Good sim d ∧
    (match run sim d 3 (fresh sim) with
      | .error _ => false
      | .ok s => done sim s &&
        match run sim d 2 s with
        | .error _ => false
        | .ok s' => decide (s'.events = [⟨1, 0, 1, 2⟩, ⟨1, 0, 1, 2⟩])) = true := by
  refine ⟨ex_valid _ _, ex_good _ (by decide +kernel) _ _ _, by decide +kernel⟩

/-- **C48** is violated for negative IDs, which the constructor accepts: the matrix of
contacts counts them from the end, so that the individual -1 can be met twice at the same
time.  The second of the recorded contacts has lost its start. -/
theorem C48_negative_id_violated :
    let sim := exSim [-1, 0, 1] 50 .uniform
    let d := exDraws [100, 1, 100, 1, 0, 10, 100, 0, 4] [0, 0, 0, 0, -1, 0, 0, -1]
    sim.accepted = true ∧
    (match run sim d 4 (fresh sim) with
      | .error _ => false
      | .ok s => decide (s.events = [⟨0, -1, 2, 6⟩, ⟨0, -1, 0, 11⟩])) = true := by decide +kernel

/-- **C66** is violated for a group without possible partners: the code has a case for rows of
zeros, but the normalisation has turned them into `nan`, and the first activation fails. -/
theorem C66_empty_row_violated :
    let sim := exSim [1, 0] 3 (.block fun _ _ => 0)
    Valid sim ∧ Good sim (exDraws [] []) ∧
    (match run sim (exDraws [1] []) 1 (fresh sim) with
      | .error e => decide (e = .valueError)
      | .ok _ => false) = true := by
  refine ⟨ex_valid _ _, ex_good _ (by decide +kernel) _ _ _, by decide +kernel⟩

end Verif.Synth
