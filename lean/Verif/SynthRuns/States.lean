import Verif.SynthRuns.Props

/-!
# Saved states of a simulation (C98)
-/

set_option linter.dupNamespace false

namespace Verif.SynthRuns

open Verif.Synth

set_option linter.unusedSectionVars false

variable {K : Type} [Field K] [LinearOrder K] [IsStrictOrderedRing K]

/-! ## Runs with and without saving -/

theorem passesRec_map (sim : Sim K) (d : Draws K) (o : Opts K) : ∀ (k : Nat) (r : Rec K),
    (passesRec sim d o k r).map (·.st) = passes sim d k r.st
  | 0, r => rfl
  | k + 1, r => by
    unfold passesRec passes stepRec
    cases h : step sim d r.st with
    | error e => rfl
    | ok s =>
      simp only
      rw [passesRec_map sim d o k]
      congr 1
      unfold record
      simp only
      split <;> [skip; rfl]
      split <;> (split <;> rfl)

/-- **C98**.  Saving does not change the simulation. -/
theorem C98_same_run (sim : Sim K) (d : Draws K) (o : Opts K) (k : Nat) (s : St K) :
    (runRec sim d o k s).map (·.st) = run sim d k s := by
  unfold runRec run
  cases initEvents d sim.ids { s with t := sim.tStart } with
  | error e => rfl
  | ok s => exact passesRec_map sim d o k _

theorem passesRec_succ (sim : Sim K) (d : Draws K) (o : Opts K) : ∀ (k : Nat) (r : Rec K),
    passesRec sim d o (k + 1) r = (passesRec sim d o k r).bind (stepRec sim d o)
  | 0, r => by
    show _ = stepRec sim d o r
    unfold passesRec
    cases stepRec sim d o r <;> simp [passesRec]
  | k + 1, r => by
    rw [passesRec]
    conv_rhs => rw [passesRec]
    cases stepRec sim d o r with
    | error e => rfl
    | ok r => exact passesRec_succ sim d o k r

theorem runRec_succ (sim : Sim K) (d : Draws K) (o : Opts K) (k : Nat) (s : St K) :
    runRec sim d o (k + 1) s = (runRec sim d o k s).bind (stepRec sim d o) := by
  unfold runRec
  cases initEvents d sim.ids { s with t := sim.tStart } with
  | error e => rfl
  | ok s => exact passesRec_succ sim d o k _

theorem runRec_run {sim : Sim K} {d : Draws K} {o : Opts K} {k : Nat} {s : St K} {r : Rec K}
    (h : runRec sim d o k s = .ok r) : run sim d k s = .ok r.st := by
  rw [← C98_same_run sim d o k s, h]
  rfl

/-- A property of a simulation with saving, from the passes. -/
theorem runRec_ind {sim : Sim K} {d : Draws K} (hv : Valid sim) (hg : Good sim d) {o : Opts K} {P : Nat → Rec K → Prop}
    (h0 : ∀ s, initEvents d sim.ids { fresh sim with t := sim.tStart } = .ok s → P 0
      { st := s
        all := if o.saveAll then dictSet [] s.t s.A else []
        saved := if o.saveDt then dictSet [] s.t s.A else []
        nextBin := s.t + o.dt })
    (h1 : ∀ k r s', runRec sim d o k (fresh sim) = .ok r → Inv sim r.st → P k r → step sim d r.st = .ok s' →
      P (k + 1) (record o r.st.t { r with st := s' })) :
    ∀ {k : Nat} {r : Rec K}, runRec sim d o k (fresh sim) = .ok r → P k r
  | 0, r, h => by
    unfold runRec at h
    split at h
    · cases h
    next s hs =>
    cases h
    exact h0 s hs
  | k + 1, r, h => by
    have hk := h
    rw [runRec_succ] at h
    cases hr : runRec sim d o k (fresh sim) with
    | error e => rw [hr] at h; cases h
    | ok r0 =>
      rw [hr] at h
      have h : stepRec sim d o r0 = .ok r := h
      unfold stepRec at h
      split at h
      · cases h
      next s' hs =>
      cases h
      exact h1 k r0 s' hr (run_inv hv hg (runRec_run hr)) (runRec_ind hv hg h0 h1 hr) hs

theorem dictSet_new {α : Type} (l : List (K × α)) (t : K) (v : α) (h : ∀ x ∈ l.map Prod.fst, x < t) :
    dictSet l t v = l ++ [(t, v)] := by
  unfold dictSet
  rw [if_neg]
  intro hc
  have := h t (by simpa using hc)
  exact lt_irrefl _ this

/-! ## All states -/

/-- The invariant for `all_states`. -/
structure AllInv (sim : Sim K) (r : Rec K) : Prop where
  sorted : (r.all.map Prod.fst).Pairwise (· < ·)
  bounds : ∀ t ∈ r.all.map Prod.fst, sim.tStart ≤ t ∧ t ≤ r.st.t
  now : r.st.t ∈ r.all.map Prod.fst
  start : sim.tStart ∈ r.all.map Prod.fst
  begun : ∀ c ∈ r.st.log, c.start ∈ r.all.map Prod.fst
  ended : ∀ c ∈ r.st.events, c.stop ∈ r.all.map Prod.fst
  shown : ∀ x ∈ r.all, ∀ a b : Nat, x.2 a b = true → ∃ c ∈ r.st.log, c.src = a ∧ c.tgt = b ∧ c.start ≤ x.1 ∧ x.1 ≤ c.stop
  complete : ∀ x ∈ r.all, ∀ c ∈ r.st.log, c.start < x.1 → x.1 < c.stop → x.2 c.src.toNat c.tgt.toNat = true

theorem running_bounds {sim : Sim K} {s : St K} (h : Inv sim s) {c : Contact K} (hc : c ∈ running sim s) :
    c ∈ s.log ∧ c.start ≤ s.t ∧ s.t ≤ c.stop ∧ ∃ e ∈ s.queue, e.time = c.stop := by
  have hl : c ∈ s.log := h.log.mem_iff.2 (List.mem_append.2 (.inr hc))
  obtain ⟨e, he, -, -, -, h2⟩ := running_mem hc
  refine ⟨hl, (h.formed c hl).2, ?_, e, he, h2.symm⟩
  rw [h2]
  exact (h.queue e he).1

theorem adj_shown {sim : Sim K} {s : St K} (h : Inv sim s) {a b : Nat} (hA : s.A a b = true) :
    ∃ c ∈ s.log, c.src = a ∧ c.tgt = b ∧ c.start ≤ s.t ∧ s.t ≤ c.stop := by
  obtain ⟨c, hc, h1, h2⟩ := (h.adj a b).1 hA
  obtain ⟨h3, h4, h5, -⟩ := running_bounds h hc
  exact ⟨c, h3, h1, h2, h4, h5⟩

theorem adj_complete {sim : Sim K} (hv : Valid sim) {s : St K} (h : Inv sim s) {c : Contact K} (hc : c ∈ s.log)
    (h2 : s.t < c.stop) : s.A c.src.toNat c.tgt.toNat = true := by
  rcases List.mem_append.1 (h.log.mem_iff.1 hc) with he | hr
  · exact absurd (h.ended c he) (not_le.2 h2)
  · have hw := (h.formed c hc).1
    have b1 := (hv.bounds hw.src).1
    have b2 := (hv.bounds hw.tgt).1
    exact (h.adj _ _).2 ⟨c, hr, by omega, by omega⟩

theorem record_st (o : Opts K) (p : K) (r : Rec K) : (record o p r).st = r.st := by
  unfold record
  simp only
  split <;> [skip; rfl]
  split <;> (split <;> rfl)

/-- With `save_all_states`, a pass adds the present state if the time has advanced. -/
theorem record_all {o : Opts K} (ho : o.saveAll = true) (p : K) (r : Rec K) (hk : ∀ t ∈ r.all.map Prod.fst, t ≤ p) :
    (record o p r).all = if p < r.st.t then r.all ++ [(r.st.t, r.st.A)] else r.all := by
  unfold record
  simp only [ho, if_true]
  split
  · next hlt =>
    rw [dictSet_new _ _ _ fun x hx => (hk x hx).trans_lt hlt]
    split <;> rfl
  · rfl

theorem allInv {sim : Sim K} {d : Draws K} (hv : Valid sim) (hg : Good sim d) {o : Opts K} (ho : o.saveAll = true)
    {k : Nat} {r : Rec K} (hr : runRec sim d o k (fresh sim) = .ok r) : AllInv sim r := by
  refine runRec_ind hv hg (P := fun _ r => AllInv sim r) ?_ ?_ hr
  · intro s hs
    obtain ⟨ht, he, hl, ha, -⟩ := initEvents_adds _ hs
    have ht : s.t = sim.tStart := ht
    have hl : s.log = [] := hl
    have he : s.events = [] := he
    have ha : s.A = fun _ _ => false := ha
    have hd : dictSet [] s.t s.A = [(s.t, s.A)] := rfl
    simp only [ho, if_true, hd]
    refine ⟨by simp, by simp [ht], by simp, by simp [ht], by simp [hl], by simp [he], ?_, by simp [hl]⟩
    intro x hx a b h
    simp only [List.mem_singleton] at hx
    subst hx
    rw [ha] at h
    cases h
  · intro k r s' _ hI h hst
    obtain ⟨hI', hmono⟩ := step_inv hv hg hI hst
    set r' := record o r.st.t { r with st := s' } with hr'
    have hst' : r'.st = s' := record_st _ _ _
    have hall : r'.all = if r.st.t < s'.t then r.all ++ [(s'.t, s'.A)] else r.all :=
      record_all ho r.st.t { r with st := s' } fun t ht => (h.bounds t ht).2
    have hkeys : ∀ t, t ∈ r'.all.map Prod.fst ↔ t ∈ r.all.map Prod.fst ∨ t = s'.t := by
      intro t
      rw [hall]
      split
      · rw [List.map_append, List.mem_append]
        simp
      · next hlt =>
        have : s'.t = r.st.t := le_antisymm (not_lt.1 hlt) hmono
        constructor
        · exact .inl
        · rintro (h' | rfl)
          · exact h'
          · rw [this]; exact h.now
    have hnew : ∃ new, s'.log = r.st.log ++ new ∧ ∀ c ∈ new, c.start = s'.t := by
      rcases step_adds hv hg (fun e he => (hI.queue e he).2) hst with ⟨rfl, -⟩ | ⟨-, e, -, -, -, h'⟩
      · exact ⟨[], by simp, by simp⟩
      · rcases h' with ⟨-, -, ⟨new, l, p⟩, -⟩ | ⟨q, -, l, -⟩
        · exact ⟨new, l, fun c hc => (p c hc).1.1⟩
        · exact ⟨[], by rw [l]; simp, by simp⟩
    have hev : ∀ c ∈ s'.events, c ∈ r.st.events ∨ c.stop = s'.t := by
      rcases step_adds hv hg (fun e he => (hI.queue e he).2) hst with ⟨rfl, -⟩ | ⟨-, e, -, -, -, h'⟩
      · exact fun c hc => .inl hc
      · rcases h' with ⟨-, l, -⟩ | ⟨q, -, -, -, l, -⟩
        · rw [l]; exact fun c hc => .inl hc
        · rw [l]
          intro c hc
          rcases List.mem_append.1 hc with hc | hc
          · exact .inl hc
          · rw [List.mem_singleton] at hc
            subst hc
            exact .inr rfl
    obtain ⟨new, hlog, hstart⟩ := hnew
    refine ⟨?_, ?_, ?_, ?_, ?_, ?_, ?_, ?_⟩
    · rw [hall]
      split
      · next hlt =>
        rw [List.map_append]
        refine List.pairwise_append.2 ⟨h.sorted, List.pairwise_singleton _ _, ?_⟩
        intro a ha b hb
        simp only [List.map_cons, List.map_nil, List.mem_singleton] at hb
        subst hb
        exact (h.bounds a ha).2.trans_lt hlt
      · exact h.sorted
    · intro t ht
      rw [hst']
      rcases (hkeys t).1 ht with ht | rfl
      · exact ⟨(h.bounds t ht).1, (h.bounds t ht).2.trans hmono⟩
      · exact ⟨hI'.time, le_rfl⟩
    · rw [hst', hkeys]; exact .inr rfl
    · rw [hkeys]; exact .inl h.start
    · intro c hc
      rw [hst', hlog] at hc
      rw [hkeys]
      rcases List.mem_append.1 hc with hc | hc
      · exact .inl (h.begun c hc)
      · exact .inr (hstart c hc)
    · intro c hc
      rw [hst'] at hc
      rw [hkeys]
      rcases hev c hc with hc | hc
      · exact .inl (h.ended c hc)
      · exact .inr hc
    · intro x hx a b hA
      rw [hst']
      have hold : x ∈ r.all → ∃ c ∈ s'.log, c.src = a ∧ c.tgt = b ∧ c.start ≤ x.1 ∧ x.1 ≤ c.stop := by
        intro hx
        obtain ⟨c, hc, h'⟩ := h.shown x hx a b hA
        exact ⟨c, by rw [hlog]; exact List.mem_append.2 (.inl hc), h'⟩
      rw [hall] at hx
      split at hx
      · rcases List.mem_append.1 hx with hx | hx
        · exact hold hx
        · rw [List.mem_singleton] at hx
          subst hx
          exact adj_shown hI' hA
      · exact hold hx
    · intro x hx c hc h1 h2
      rw [hst'] at hc
      have hold : x ∈ r.all → x.2 c.src.toNat c.tgt.toNat = true := by
        intro hx
        rw [hlog] at hc
        rcases List.mem_append.1 hc with hc | hc
        · exact h.complete x hx c hc h1 h2
        · rw [hstart c hc] at h1
          exact absurd ((h.bounds x.1 (List.mem_map_of_mem hx)).2.trans hmono) (not_le.2 h1)
      rw [hall] at hx
      split at hx
      · rcases List.mem_append.1 hx with hx | hx
        · exact hold hx
        · rw [List.mem_singleton] at hx
          subst hx
          exact adj_complete hv hI' hc h2
      · exact hold hx

/-- **C98**.  With `save_all_states`, the times of the saved states increase, begin with the start of the
simulation and contain every time at which a contact begins or a recorded one ends; a saved matrix shows
only pairs in contact at its time, and every pair whose contact begins before and ends after it. -/
theorem C98_all_states {sim : Sim K} {d : Draws K} (hv : Valid sim) (hg : Good sim d) {o : Opts K}
    (ho : o.saveAll = true) {k : Nat} {r : Rec K} (hr : runRec sim d o k (fresh sim) = .ok r) :
    (r.all.map Prod.fst).Pairwise (· < ·) ∧ (∃ A l, r.all = (sim.tStart, A) :: l ∧ ∀ a b, A a b = false) ∧
    (∀ c ∈ r.st.log, c.start ∈ r.all.map Prod.fst) ∧ (∀ c ∈ r.st.events, c.stop ∈ r.all.map Prod.fst) ∧
    ∀ x ∈ r.all,
      (∀ a b : Nat, x.2 a b = true → ∃ c ∈ r.st.log, c.src = a ∧ c.tgt = b ∧ c.start ≤ x.1 ∧ x.1 ≤ c.stop) ∧
      ∀ c ∈ r.st.log, c.start < x.1 → x.1 < c.stop → x.2 c.src.toNat c.tgt.toNat = true := by
  have h := allInv hv hg ho hr
  refine ⟨h.sorted, ?_, h.begun, h.ended, fun x hx => ⟨h.shown x hx, h.complete x hx⟩⟩
  refine runRec_ind hv hg (P := fun _ r => ∃ A l, r.all = (sim.tStart, A) :: l ∧ ∀ a b, A a b = false) ?_ ?_ hr
  · intro s hs
    obtain ⟨ht, -, -, ha, -⟩ := initEvents_adds _ hs
    have ht : s.t = sim.tStart := ht
    have ha : s.A = fun _ _ => false := ha
    have hd : dictSet [] s.t s.A = [(s.t, s.A)] := rfl
    simp only [ho, if_true, hd]
    exact ⟨s.A, [], by rw [ht], by rw [ha]; intros; rfl⟩
  · rintro k r s' hrr hI ⟨A, l, hall, hA⟩ _
    have hb := (allInv hv hg ho hrr).bounds
    rw [record_all ho r.st.t { r with st := s' } fun t ht => (hb t ht).2]
    split
    · exact ⟨A, l ++ [(s'.t, s'.A)], by simp only; rw [hall]; rfl, hA⟩
    · exact ⟨A, l, hall, hA⟩

/-- **C98 (partial)**.  If nothing is ever due at the very time that has just been treated, a saved matrix
shows exactly the pairs with a contact that has begun and not ended.  Missing: events at the same time. -/
theorem C98_exact_partial {sim : Sim K} {d : Draws K} (hv : Valid sim) (hg : Good sim d) {o : Opts K}
    (ho : o.saveAll = true) {k : Nat} {r : Rec K} (hr : runRec sim d o k (fresh sim) = .ok r)
    (hties : ∀ j ≤ k, ∀ s, run sim d j (fresh sim) = .ok s → ∀ e ∈ s.queue, e.time ≠ s.t) :
    ∀ x ∈ r.all, ∀ a b : Nat,
      x.2 a b = true ↔ ∃ c ∈ r.st.log, c.src = a ∧ c.tgt = b ∧ c.start ≤ x.1 ∧ x.1 < c.stop := by
  have key : ∀ {k : Nat} {r : Rec K}, runRec sim d o k (fresh sim) = .ok r →
      (∀ j ≤ k, ∀ s, run sim d j (fresh sim) = .ok s → ∀ e ∈ s.queue, e.time ≠ s.t) → ∀ x ∈ r.all, ∀ a b : Nat,
      x.2 a b = true ↔ ∃ c ∈ r.st.log, c.src = a ∧ c.tgt = b ∧ c.start ≤ x.1 ∧ x.1 < c.stop := by
    intro k r hr
    refine runRec_ind hv hg (P := fun k r => (∀ j ≤ k, ∀ s, run sim d j (fresh sim) = .ok s → ∀ e ∈ s.queue, e.time ≠ s.t) →
      ∀ x ∈ r.all, ∀ a b : Nat,
        x.2 a b = true ↔ ∃ c ∈ r.st.log, c.src = a ∧ c.tgt = b ∧ c.start ≤ x.1 ∧ x.1 < c.stop) ?_ ?_ hr
    · intro s hs _ x hx a b
      obtain ⟨ht, -, hl, ha, -⟩ := initEvents_adds _ hs
      have hl : s.log = [] := hl
      have ha : s.A = fun _ _ => false := ha
      have hd : dictSet [] s.t s.A = [(s.t, s.A)] := rfl
      simp only [ho, if_true, hd, List.mem_singleton] at hx
      subst hx
      simp [hl, ha]
    · intro k r s' hrr hI ih hst hq
      have ih := ih fun j hj => hq j (by omega)
      obtain ⟨hI', hmono⟩ := step_inv hv hg hI hst
      have hb := (allInv hv hg ho hrr).bounds
      rw [record_st, record_all ho r.st.t { r with st := s' } fun t ht => (hb t ht).2]
      simp only
      have hrun' : run sim d (k + 1) (fresh sim) = .ok s' := by
        have : runRec sim d o (k + 1) (fresh sim) = .ok (record o r.st.t { r with st := s' }) := by
          rw [runRec_succ, hrr]
          show stepRec sim d o r = _
          unfold stepRec
          rw [hst]
        rw [runRec_run this, record_st]
      have hnow := hq k (by omega) r.st (runRec_run hrr)
      have hnow' := hq (k + 1) le_rfl s' hrun'
      have hcur : ∀ a b : Nat, s'.A a b = true ↔ ∃ c ∈ s'.log, c.src = a ∧ c.tgt = b ∧ c.start ≤ s'.t ∧ s'.t < c.stop := by
        intro a b
        constructor
        · intro hA
          obtain ⟨c, hc, h1, h2⟩ := (hI'.adj a b).1 hA
          obtain ⟨h3, h4, h5, e, he, h6⟩ := running_bounds hI' hc
          refine ⟨c, h3, h1, h2, h4, lt_of_le_of_ne h5 ?_⟩
          rw [← h6]
          exact (hnow' e he).symm
        · rintro ⟨c, hc, h1, h2, -, h4⟩
          have := adj_complete hv hI' hc h4
          rw [h1, h2] at this
          exact this
      rcases step_adds hv hg (fun e he => (hI.queue e he).2) hst with ⟨rfl, -⟩ | ⟨-, e, heq, ht, -, h'⟩
      · rw [if_neg (lt_irrefl _)]
        exact ih
      · have hlt : r.st.t < s'.t := by
          rw [ht]
          exact lt_of_le_of_ne (hI.queue e heq).1 (hnow e heq).symm
        rw [if_pos hlt]
        have hnew : ∃ new, s'.log = r.st.log ++ new ∧ ∀ c ∈ new, c.start = s'.t := by
          rcases h' with ⟨-, -, ⟨new, l, p⟩, -⟩ | ⟨q, -, l, -⟩
          · exact ⟨new, l, fun c hc => (p c hc).1.1⟩
          · exact ⟨[], by rw [l]; simp, by simp⟩
        obtain ⟨new, hlog, hstart⟩ := hnew
        intro x hx a b
        rcases List.mem_append.1 hx with hx | hx
        · rw [ih x hx a b, hlog]
          constructor
          · rintro ⟨c, hc, h⟩
            exact ⟨c, List.mem_append.2 (.inl hc), h⟩
          · rintro ⟨c, hc, h⟩
            rcases List.mem_append.1 hc with hc | hc
            · exact ⟨c, hc, h⟩
            · have h3 := h.2.2.1
              rw [hstart c hc] at h3
              exact absurd ((hb x.1 (List.mem_map_of_mem hx)).2.trans_lt hlt) (not_lt.2 h3)
        · rw [List.mem_singleton] at hx
          subst hx
          exact hcur a b
  exact key hr hties

/-! ## States at regular times -/

/-- The invariant for `saved_states`. -/
structure SavedInv (sim : Sim K) (dt : K) (r : Rec K) : Prop where
  bin : r.nextBin = sim.tStart + dt * r.saved.length
  sub : r.saved.Sublist r.all
  start : ∃ A l, r.saved = (sim.tStart, A) :: l
  spec : ∀ t ∈ r.all.map Prod.fst, t ≠ sim.tStart → (t ∈ r.saved.map Prod.fst ↔
    sim.tStart + dt * ((r.saved.map Prod.fst).filter fun u => decide (u < t)).length ≤ t)

theorem record_saved {o : Opts K} (ho : o.saveDt = true) (p : K) (r : Rec K) (hk : ∀ t ∈ r.saved.map Prod.fst, t ≤ p) :
    (record o p r).saved = (if p < r.st.t ∧ r.nextBin ≤ r.st.t then r.saved ++ [(r.st.t, r.st.A)] else r.saved) ∧
    (record o p r).nextBin = if p < r.st.t ∧ r.nextBin ≤ r.st.t then r.nextBin + o.dt else r.nextBin := by
  unfold record
  by_cases h1 : p < r.st.t
  · have hd : dictSet r.saved r.st.t r.st.A = r.saved ++ [(r.st.t, r.st.A)] :=
      dictSet_new _ _ _ fun x hx => (hk x hx).trans_lt h1
    by_cases h2 : r.nextBin ≤ r.st.t
    · cases hs : o.saveAll <;> simp [h1, h2, ho, hd]
    · cases hs : o.saveAll <;> simp [h1, h2, ho]
  · simp [h1]

theorem savedInv {sim : Sim K} {d : Draws K} (hv : Valid sim) (hg : Good sim d) {o : Opts K} (ho : o.saveAll = true)
    (ho' : o.saveDt = true) {k : Nat} {r : Rec K} (hr : runRec sim d o k (fresh sim) = .ok r) : SavedInv sim o.dt r := by
  refine runRec_ind hv hg (P := fun _ r => SavedInv sim o.dt r) ?_ ?_ hr
  · intro s hs
    obtain ⟨ht, -⟩ := initEvents_adds _ hs
    have ht : s.t = sim.tStart := ht
    have hd : dictSet [] s.t s.A = [(s.t, s.A)] := rfl
    simp only [ho, ho', if_true, hd]
    refine ⟨by simp [ht], List.Sublist.refl _, ⟨s.A, [], by rw [ht]⟩, ?_⟩
    intro t h1 h2
    simp only [List.map_cons, List.map_nil, List.mem_singleton] at h1
    exact absurd (h1.trans ht) h2
  · intro k r s' hrr hI h hst
    obtain ⟨hI', hmono⟩ := step_inv hv hg hI hst
    have hA := allInv hv hg ho hrr
    have hb := hA.bounds
    have hbs : ∀ t ∈ r.saved.map Prod.fst, t ≤ r.st.t := fun t ht => (hb t ((h.sub.map _).mem ht)).2
    have hall := record_all ho r.st.t { r with st := s' } fun t ht => (hb t ht).2
    obtain ⟨hsv, hnb⟩ := record_saved ho' r.st.t { r with st := s' } hbs
    simp only at hall hsv hnb
    have hfil : ∀ t, t ≤ s'.t → (((r.saved ++ [(s'.t, s'.A)]).map Prod.fst).filter fun u => decide (u < t)) =
        (r.saved.map Prod.fst).filter fun u => decide (u < t) := by
      intro t ht
      rw [List.map_append, List.filter_append]
      simp [not_lt.2 ht]
    by_cases h1 : r.st.t < s'.t
    · rw [if_pos h1] at hall
      have hnew : s'.t ∉ r.saved.map Prod.fst := fun hc => absurd (hbs _ hc) (not_le.2 h1)
      have hcount : ((r.saved.map Prod.fst).filter fun u => decide (u < s'.t)) = r.saved.map Prod.fst := by
        rw [List.filter_eq_self]
        intro u hu
        exact decide_eq_true ((hbs u hu).trans_lt h1)
      by_cases h2 : r.nextBin ≤ s'.t
      · rw [if_pos ⟨h1, h2⟩] at hsv hnb
        refine ⟨?_, ?_, ?_, ?_⟩
        · rw [hsv, hnb, h.bin, List.length_append]
          push_cast
          simp only [List.length_cons, List.length_nil]
          push_cast
          ring
        · rw [hsv, hall]
          exact h.sub.append_right _
        · obtain ⟨A, l, hl⟩ := h.start
          exact ⟨A, l ++ [(s'.t, s'.A)], by rw [hsv, hl]; rfl⟩
        · intro t ht hne
          rw [hall, List.map_append, List.mem_append] at ht
          rw [hsv]
          rcases ht with ht | ht
          · have hle := (hb t ht).2
            rw [hfil t (hle.trans hmono), ← h.spec t ht hne, List.map_append, List.mem_append]
            constructor
            · rintro (h' | h')
              · exact h'
              · simp only [List.map_cons, List.map_nil, List.mem_singleton] at h'
                exact absurd (hle.trans_lt h1) (by rw [h']; exact lt_irrefl _)
            · exact .inl
          · simp only [List.map_cons, List.map_nil, List.mem_singleton] at ht
            subst ht
            rw [hfil _ le_rfl, hcount, List.length_map, ← h.bin]
            simp [h2]
      · rw [if_neg (fun hc => h2 hc.2)] at hsv hnb
        refine ⟨by rw [hsv, hnb]; exact h.bin, ?_, by rw [hsv]; exact h.start, ?_⟩
        · rw [hsv, hall]
          exact h.sub.trans (List.sublist_append_left _ _)
        · intro t ht hne
          rw [hall, List.map_append, List.mem_append] at ht
          rw [hsv]
          rcases ht with ht | ht
          · exact h.spec t ht hne
          · simp only [List.map_cons, List.map_nil, List.mem_singleton] at ht
            subst ht
            rw [hcount, List.length_map, ← h.bin]
            exact ⟨fun hc => absurd hc hnew, fun hc => absurd hc h2⟩
    · rw [if_neg h1] at hall
      rw [if_neg (fun hc => h1 hc.1)] at hsv hnb
      exact ⟨by rw [hsv, hnb]; exact h.bin, by rw [hsv, hall]; exact h.sub, by rw [hsv]; exact h.start,
        by rw [hsv, hall]; exact h.spec⟩

theorem record_forget (o : Opts K) (p : K) (r : Rec K) (l : List (K × (Nat → Nat → Bool))) :
    record ⟨false, o.saveDt, o.dt⟩ p { r with all := l } = { record o p r with all := l } := by
  unfold record
  by_cases h1 : p < r.st.t
  · cases h2 : o.saveAll <;> cases h3 : o.saveDt <;> by_cases h4 : r.nextBin ≤ r.st.t <;> simp [h1, h4]
  · simp [h1]

theorem passesRec_forget (sim : Sim K) (d : Draws K) (o : Opts K) : ∀ (k : Nat) (r : Rec K),
    passesRec sim d ⟨false, o.saveDt, o.dt⟩ k { r with all := [] } =
      (passesRec sim d o k r).map fun r => { r with all := [] }
  | 0, r => rfl
  | k + 1, r => by
    unfold passesRec stepRec
    simp only
    cases step sim d r.st with
    | error e => rfl
    | ok s =>
      simp only
      rw [← passesRec_forget sim d o k, ← record_forget]

/-- **C98**.  The states saved every `dt` do not depend on the option to save all states. -/
theorem C98_saved_same (sim : Sim K) (d : Draws K) (dt : K) (k : Nat) (s : St K) :
    (runRec sim d ⟨false, true, dt⟩ k s).map (·.saved) = (runRec sim d ⟨true, true, dt⟩ k s).map (·.saved) := by
  unfold runRec
  cases initEvents d sim.ids { s with t := sim.tStart } with
  | error e => rfl
  | ok s =>
    simp only [if_true, Bool.false_eq_true, if_false]
    have h := passesRec_forget sim d ⟨true, true, dt⟩ k
      { st := s, all := dictSet [] s.t s.A, saved := dictSet [] s.t s.A, nextBin := s.t + dt }
    simp only at h
    rw [h]
    cases passesRec sim d ⟨true, true, dt⟩ k
      { st := s, all := dictSet [] s.t s.A, saved := dictSet [] s.t s.A, nextBin := s.t + dt } <;> rfl

/-- **C98 (partial)**.  The states saved every `dt` are some of all states, the first one included; the state of
a time is saved exactly if `dt` times the number of states saved before has passed since the start.  Missing: saving at
a constant frequency. -/
theorem C98_saved_partial {sim : Sim K} {d : Draws K} (hv : Valid sim) (hg : Good sim d) {dt : K} {k : Nat} {r : Rec K}
    (hr : runRec sim d ⟨true, true, dt⟩ k (fresh sim) = .ok r) :
    r.saved.Sublist r.all ∧ r.saved.head? = r.all.head? ∧
    (∀ t ∈ r.all.map Prod.fst, t ≠ sim.tStart → (t ∈ r.saved.map Prod.fst ↔
      sim.tStart + dt * ((r.saved.map Prod.fst).filter fun u => decide (u < t)).length ≤ t)) ∧
    ∀ (i : Nat) (t : K), (r.saved.map Prod.fst)[i]? = some t → sim.tStart + dt * i ≤ t := by
  have h := savedInv hv hg rfl rfl hr
  have hA := C98_all_states hv hg rfl hr
  have hso : (r.saved.map Prod.fst).Pairwise (· < ·) := hA.1.sublist (h.sub.map _)
  refine ⟨h.sub, ?_, h.spec, ?_⟩
  · obtain ⟨A, l, h1⟩ := h.start
    obtain ⟨A', l', h2, -⟩ := hA.2.1
    have hmem : (sim.tStart, A) ∈ r.all := h.sub.mem (by rw [h1]; simp)
    have hsame : (sim.tStart, A) = (sim.tStart, A') := by
      rw [h2] at hmem
      rcases List.mem_cons.1 hmem with h3 | h3
      · exact h3
      · have := hA.1
        rw [h2, List.map_cons, List.pairwise_cons] at this
        exact absurd (this.1 sim.tStart (List.mem_map.2 ⟨_, h3, rfl⟩)) (lt_irrefl _)
    rw [h1, h2, List.head?_cons, List.head?_cons, hsame]
  · intro i t hi
    obtain ⟨hlt, hget⟩ := List.getElem?_eq_some_iff.1 hi
    by_cases h0 : t = sim.tStart
    · have hi0 : i = 0 := by
        obtain ⟨A, l, h1⟩ := h.start
        by_contra hne
        have h3 := List.pairwise_iff_getElem.1 hso 0 i (by omega) hlt (by omega)
        rw [hget, h0] at h3
        simp [h1] at h3
      rw [hi0, h0]
      simp
    · have hmem : t ∈ r.saved.map Prod.fst := List.mem_of_getElem? hi
      have hspec := (h.spec t ((h.sub.map _).mem hmem) h0).1 hmem
      have hcount : ((r.saved.map Prod.fst).filter fun u => decide (u < t)).length = i := by
        generalize r.saved.map Prod.fst = L at *
        rw [← List.take_append_drop i L, List.filter_append, List.length_append]
        have e1 : (L.take i).filter (fun u => decide (u < t)) = L.take i := by
          rw [List.filter_eq_self]
          intro u hu
          obtain ⟨j, hj, rfl⟩ := List.getElem_of_mem hu
          rw [List.length_take] at hj
          rw [List.getElem_take]
          apply decide_eq_true
          rw [← hget]
          exact List.pairwise_iff_getElem.1 hso j i (by omega) hlt (by omega)
        have e2 : (L.drop i).filter (fun u => decide (u < t)) = [] := by
          rw [List.filter_eq_nil_iff]
          intro u hu
          obtain ⟨j, hj, rfl⟩ := List.getElem_of_mem hu
          rw [List.length_drop] at hj
          rw [List.getElem_drop]
          simp only [decide_eq_true_eq, not_lt]
          rw [← hget]
          rcases Nat.eq_zero_or_pos j with rfl | hj0
          · simp
          · exact (List.pairwise_iff_getElem.1 hso i (i + j) hlt (by omega) (by omega)).le
        rw [e1, e2, List.length_take, List.length_nil]
        omega
      rw [hcount] at hspec
      exact hspec

/-! ## Irregular distances and events at the same time -/

/-- One individual that is activated after `3 dt`, and again after `ε`. -/
def lateSim (dt ε : K) : Sim K := { ids := [0], group := fun _ => 0, tStart := 0, tEnd := 3 * dt + ε, m := 1, method := .uniform }

/-- The draws of that individual. -/
def lateDraws (dt ε : K) : Draws K :=
  { activ := fun k _ _ => some (if k = 0 then 3 * dt else ε), inter := fun _ _ _ => some 1
    targetGroup := fun _ _ => 0, pick := fun _ l => l.headD 0 }

theorem late_groups (dt ε : K) : (lateSim dt ε).nGroups = 1 := by
  simp [Sim.nGroups, Sim.n, lateSim]

theorem late_valid (dt ε : K) : Valid (lateSim dt ε) where
  accepted := by
    simp [Sim.accepted, late_groups]
    simp [Sim.n, lateSim]
  ids := by simp [lateSim]
  groups := by simp [lateSim]

theorem late_good {dt ε : K} (h1 : 0 < dt) (h2 : 0 < ε) : Good (lateSim dt ε) (lateDraws dt ε) where
  activ := by
    intro k i t x h
    simp only [lateDraws, Option.some.injEq] at h
    split at h
    · rw [← h]; positivity
    · rw [← h]; exact h2.le
  inter := by
    intro k i t x h
    simp only [lateDraws, Option.some.injEq] at h
    rw [← h]; exact zero_le_one
  target := by
    intro k p _ h
    rw [late_groups] at h ⊢
    simp only [Finset.range_one, Finset.sum_singleton] at h
    simp [lateDraws, h]
  pick := by
    intro k l hl
    cases l with
    | nil => exact absurd rfl hl
    | cons a l => simp [lateDraws]

/-- **C98 (violated)**.  States are not saved at a constant frequency: for every `dt` and every distance `ε`,
however small, there is a simulation whose second and third saved states are `ε` apart, with nothing saved for
`3 dt` before. -/
theorem C98_frequency_violated {dt ε : K} (h1 : 0 < dt) (h2 : 0 < ε) : ∃ (sim : Sim K) (d : Draws K) (k : Nat) (r : Rec K),
    Valid sim ∧ Good sim d ∧ runRec sim d ⟨false, true, dt⟩ k (fresh sim) = .ok r ∧
    r.saved.map Prod.fst = [0, 3 * dt, 3 * dt + ε] := by
  have a1 : ¬ (3 * dt + ε ≤ 0) := by
    rw [not_le]; positivity
  have a2 : ¬ (3 * dt + ε ≤ 3 * dt) := by
    rw [not_le]; linarith
  have a3 : (0 : K) < 3 * dt := by positivity
  have a4 : dt ≤ 3 * dt := by linarith
  have a5 : dt + dt ≤ 3 * dt + ε := by linarith
  have a6 : ¬ (3 * dt = 0) := a3.ne'
  have a7 : ¬ (3 * dt + ε = 3 * dt) := by
    intro h; linarith
  have a8 : ¬ (3 * dt + ε = 0) := by
    intro h; linarith
  have key : ∃ r, runRec (lateSim dt ε) (lateDraws dt ε) ⟨false, true, dt⟩ 2 (fresh (lateSim dt ε)) = .ok r ∧
      r.saved.map Prod.fst = [0, 3 * dt, 3 * dt + ε] := by
    simp [runRec, lateSim, lateDraws, fresh, initEvents, putActivation, passesRec, stepRec, step, popMin, interactions,
      interact, newPartner, unPartners, sameSet, Sim.n, record, dictSet, a1, a2, a3, a4, a5, a6, a7, a8, h1, h2]
  obtain ⟨r, hr, hs⟩ := key
  exact ⟨_, _, 2, r, late_valid dt ε, late_good h1 h2, hr, hs⟩

/-- Two individuals that are activated at the same time. -/
def tieSim : Sim ℚ := { ids := [0, 1], group := fun _ => 0, tStart := 0, tEnd := 3, m := 1, method := .uniform }

/-- Their draws. -/
def tieDraws : Draws ℚ :=
  { activ := fun k _ _ => some (if k ≤ 1 then 1 else 5), inter := fun _ _ _ => some 1
    targetGroup := fun _ _ => 0, pick := fun _ l => l.headD 0 }

/-- **C98 (violated)**.  Of several events at the same time only the first is in the saved state: here both
individuals begin a contact of length 1 at time 1, and the matrix saved for that time shows only one of them. -/
theorem C98_same_time_violated : ∃ r, runRec tieSim tieDraws ⟨true, false, 1⟩ 2 (fresh tieSim) = .ok r ∧
    r.st.log = [⟨0, 1, 1, 2⟩, ⟨1, 0, 1, 2⟩] ∧ r.all.map (fun x => (x.1, x.2 0 1, x.2 1 0)) = [(0, false, false), (1, true, false)] := by
  have h : (match runRec tieSim tieDraws ⟨true, false, 1⟩ 2 (fresh tieSim) with
    | .ok r => (r.st.log, r.all.map (fun x => (x.1, x.2 0 1, x.2 1 0)))
    | .error _ => ([], [])) = ([⟨0, 1, 1, 2⟩, ⟨1, 0, 1, 2⟩], [(0, false, false), (1, true, false)]) := by decide +kernel
  split at h
  · next r hr => exact ⟨r, hr, congrArg Prod.fst h, congrArg Prod.snd h⟩
  · cases h

/-! ## The theorems apply -/

/-- Both individuals of `exSim` activated at different times. -/
example : ∃ r, runRec (exSim [1, 0] 5 .uniform) (exDraws [1, 2, 10, 3, 1 / 2, 10] []) ⟨true, true, 2⟩ 3
      (fresh (exSim [1, 0] 5 .uniform)) = .ok r ∧ r.all.length = 4 ∧ r.saved.length = 2 ∧
    (r.all.map Prod.fst).Pairwise (· < ·) ∧ r.saved.Sublist r.all := by
  have h : (match runRec (exSim [1, 0] 5 .uniform) (exDraws [1, 2, 10, 3, 1 / 2, 10] []) ⟨true, true, 2⟩ 3
      (fresh (exSim [1, 0] 5 .uniform)) with
    | .ok r => (r.all.length, r.saved.length)
    | .error _ => (0, 0)) = (4, 2) := by decide +kernel
  split at h
  · next r hr =>
    have hg := ex_good [1, 2, 10, 3, 1 / 2, 10] (by decide +kernel) [] 5 .uniform
    have hv := ex_valid 5 .uniform
    exact ⟨r, hr, congrArg Prod.fst h, congrArg Prod.snd h, (C98_all_states hv hg rfl hr).1, (C98_saved_partial hv hg hr).1⟩
  · cases h

/-- The individual of `lateSim` meets the hypothesis of `C98_exact_partial`. -/
example {dt ε : K} (h1 : 0 < dt) (h2 : 0 < ε) : ∀ j ≤ 1, ∀ s, run (lateSim dt ε) (lateDraws dt ε) j (fresh (lateSim dt ε)) = .ok s →
    ∀ e ∈ s.queue, e.time ≠ s.t := by
  have a1 : ¬ (3 * dt + ε ≤ 0) := by
    rw [not_le]; positivity
  have a6 : ¬ (dt = 0) := h1.ne'
  intro j hj s hs
  interval_cases j
  · simp [run, lateSim, lateDraws, fresh, initEvents, putActivation, passes] at hs
    subst hs
    simp [a6]
  · simp [run, lateSim, lateDraws, fresh, initEvents, putActivation, passes, step, popMin, interactions,
      interact, newPartner, unPartners, sameSet, Sim.n, a1] at hs
    subst hs
    simp [h2.ne']

end Verif.SynthRuns
