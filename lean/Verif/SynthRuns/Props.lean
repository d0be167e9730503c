import Verif.SynthRuns.Lemmas
import Mathlib.Tactic.IntervalCases

/-!
# Individuals of a simulation (C97)
-/

set_option linter.dupNamespace false

namespace Verif.SynthRuns

open Verif.Synth

variable {K : Type} [Field K] [LinearOrder K] [IsStrictOrderedRing K]

/-- **C97**.  An individual is made exactly if its ID and group are integers and both distributions are
exponential; it has the given parameters, or the given functions of time, is listed in the class
attributes, and without a time its numbers are drawn with the given parameters.  Otherwise it is refused
with `NotImplementedError` for another distribution and `ValueError` for the ID or the group. -/
theorem C97_made (a : IndivArgs K) (c : ClassLists) :
    ((∃ x, (makeIndiv a c).1 = .ok x) ↔
      a.id ≠ none ∧ a.group ≠ none ∧ a.interType = "exponential" ∧ a.activType = "exponential") ∧
    (∀ x, (makeIndiv a c).1 = .ok x → a.id = some x.id ∧ a.group = some x.group ∧
      (makeIndiv a c).2.allIDs = c.allIDs ++ [x.id] ∧ (makeIndiv a c).2.allGroups = c.allGroups ++ [x.group] ∧
      (∀ f, a.interMod = some f → x.interMod = f) ∧ (a.interMod = none → ∀ t, x.interMod t = (a.interLoc, a.interScale)) ∧
      (∀ f, a.activMod = some f → x.activMod = f) ∧ (a.activMod = none → ∀ t, x.activMod t = (a.activLoc, a.activScale)) ∧
      (∀ u, 0 ≤ a.interScale → drawTime x.interDistro x.interMod none u = some (a.interLoc + a.interScale * u)) ∧
      (∀ u, 0 ≤ a.activScale → drawTime x.activDistro x.activMod none u = some (a.activLoc + a.activScale * u))) ∧
    (a.id = none → (makeIndiv a c).1 = .error .valueError) ∧
    (a.id ≠ none → a.interType ≠ "exponential" ∨ a.activType ≠ "exponential" →
      (makeIndiv a c).1 = .error .notImplemented) ∧
    (a.interType = "exponential" → a.activType = "exponential" → a.group = none →
      (makeIndiv a c).1 = .error .valueError) := by
  obtain ⟨id, il, is, it, im, al, as, at', am, g⟩ := a
  unfold makeIndiv makeDistro
  cases id with
  | none => simp
  | some id =>
    by_cases h1 : it = "exponential"
    · by_cases h2 : at' = "exponential"
      · cases g with
        | none => simp [h1, h2]
        | some g =>
          simp only [h1, h2, if_true]
          refine ⟨by simp, ?_, by simp, by simp, by simp⟩
          intro x hx
          cases hx
          refine ⟨rfl, rfl, rfl, rfl, ?_, ?_, ?_, ?_, ?_, ?_⟩
          · rintro f rfl; rfl
          · rintro rfl t; rfl
          · rintro f rfl; rfl
          · rintro rfl t; rfl
          · intro u hs
            simp [drawTime, Distro.drawVal, not_lt.2 hs]
          · intro u hs
            simp [drawTime, Distro.drawVal, not_lt.2 hs]
      · simp [h1, h2]
    · simp [h1]

/-- **C97**.  An individual with an ID and a group and otherwise the defaults is made; at every time
its contacts last the number drawn, and it waits five times the number drawn. -/
theorem C97_defaults (id group : Int) (c : ClassLists) :
    ∃ x : Indiv K, (makeIndiv (plainArgs id group) c).1 = .ok x ∧ x.id = id ∧ x.group = group ∧
      ∀ (t : Option K) (u : K), drawTime x.interDistro x.interMod t u = some u ∧
        drawTime x.activDistro x.activMod t u = some (5 * u) := by
  refine ⟨_, rfl, rfl, rfl, fun t u => ?_⟩
  have h1 : ¬ (1 : K) < 0 := not_lt.2 zero_le_one
  have h5 : ¬ (5 : K) < 0 := not_lt.2 (by norm_num)
  cases t <;> simp [drawTime, Distro.drawVal, plainArgs, h1, h5]

/-- **C97 (violated)**.  An individual that is refused for its group or for a distribution nevertheless
leaves its ID in the class attribute, and no group: the two lists do not fit together any more. -/
theorem C97_made_violated (a : IndivArgs K) (c : ClassLists) {id : Int} (hid : a.id = some id)
    (h : a.group = none ∨ a.interType ≠ "exponential" ∨ a.activType ≠ "exponential") :
    (∃ e, (makeIndiv a c).1 = .error e) ∧ (makeIndiv a c).2.allIDs = c.allIDs ++ [id] ∧
      (makeIndiv a c).2.allGroups = c.allGroups ∧
      (c.allIDs.length = c.allGroups.length → (makeIndiv a c).2.allIDs.length ≠ (makeIndiv a c).2.allGroups.length) := by
  obtain ⟨i, il, is, it, im, al, as, at', am, g⟩ := a
  simp only at hid h
  subst hid
  unfold makeIndiv makeDistro
  by_cases h1 : it = "exponential"
  · by_cases h2 : at' = "exponential"
    · rcases h with rfl | h | h
      · simp [h1, h2]
        omega
      · exact absurd h1 h
      · exact absurd h2 h
    · simp [h1, h2]
      omega
  · simp [h1]
    omega

/-- The numbers of a tape and the parameters are such that no time is negative. -/
structure Fine (inds : List (Indiv K)) (sim : Sim K) (u : Nat → K) (tg : Nat → (Nat → K) → Nat)
    (pick : Nat → List Int → Int) : Prop where
  tape : ∀ k, 0 ≤ u k
  activ : ∀ a ∈ inds, ∀ t, 0 ≤ (a.activMod t).1
  inter : ∀ a ∈ inds, ∀ t, 0 ≤ (a.interMod t).1
  target : ∀ k p, (∀ g < sim.nGroups, 0 ≤ p g) → ∑ g ∈ Finset.range sim.nGroups, p g = 1 →
    tg k p < sim.nGroups ∧ 0 < p (tg k p)
  pick : ∀ k l, l ≠ [] → pick k l ∈ l

theorem drawTime_some {d : Distro K} {mod : K → K × K} {t u x : K} (h : drawTime d mod (some t) u = some x) :
    0 < (mod t).2 ∧ x = (mod t).1 + (mod t).2 * u := by
  unfold drawTime at h
  simp only at h
  split at h
  · cases h
  next h0 =>
  unfold Distro.drawVal at h
  simp only [Option.getD_some] at h
  split at h
  · cases h
  next h1 =>
  cases h
  exact ⟨lt_of_le_of_ne (not_lt.1 h1) (Ne.symm h0), rfl⟩

theorem activ_some {inds : List (Indiv K)} {u : Nat → K} {tg pick} {k : Nat} {i : Int} {t x : K}
    (h : (drawsOf inds u tg pick).activ k i t = some x) :
    ∃ a, inds[wrap inds.length i]? = some a ∧ 0 < (a.activMod t).2 ∧ x = (a.activMod t).1 + (a.activMod t).2 * u k := by
  obtain ⟨a, ha, h⟩ := Option.bind_eq_some_iff.1 h
  exact ⟨a, ha, drawTime_some h⟩

theorem inter_some {inds : List (Indiv K)} {u : Nat → K} {tg pick} {k : Nat} {i : Int} {t x : K}
    (h : (drawsOf inds u tg pick).inter k i t = some x) :
    ∃ a, inds[wrap inds.length i]? = some a ∧ 0 < (a.interMod t).2 ∧ x = (a.interMod t).1 + (a.interMod t).2 * u k := by
  obtain ⟨a, ha, h⟩ := Option.bind_eq_some_iff.1 h
  exact ⟨a, ha, drawTime_some h⟩

theorem Fine.good {inds : List (Indiv K)} {sim : Sim K} {u : Nat → K} {tg pick} (h : Fine inds sim u tg pick) :
    Good sim (drawsOf inds u tg pick) where
  activ := by
    intro k i t x hx
    obtain ⟨a, ha, h1, rfl⟩ := activ_some hx
    exact add_nonneg (h.activ a (List.mem_of_getElem? ha) t) (mul_nonneg h1.le (h.tape k))
  inter := by
    intro k i t x hx
    obtain ⟨a, ha, h1, rfl⟩ := inter_some hx
    exact add_nonneg (h.inter a (List.mem_of_getElem? ha) t) (mul_nonneg h1.le (h.tape k))
  target := h.target
  pick := h.pick

theorem simOf_n (inds : List (Indiv K)) (t₀ t₁ : K) (m : Nat) (method : Method K) :
    (simOf inds t₀ t₁ m method).n = inds.length := by
  simp [simOf, Sim.n]

/-- **C97**.  The times of the individual with ID `i` come from the parameters of the individual at
position `i` of the list, at the time when they are drawn: every contact lasts location plus scale
times a number of the tape, and every activation ahead was set in that way. -/
theorem C97_positions {inds : List (Indiv K)} {t₀ t₁ : K} {m : Nat} {method : Method K} {u : Nat → K} {tg pick}
    (hv : Valid (simOf inds t₀ t₁ m method)) (hf : Fine inds (simOf inds t₀ t₁ m method) u tg pick) {k : Nat} {s : St K}
    (hs : run (simOf inds t₀ t₁ m method) (drawsOf inds u tg pick) k (fresh (simOf inds t₀ t₁ m method)) = .ok s) :
    (∀ c ∈ s.log, ∃ a, inds[c.src.toNat]? = some a ∧ 0 < (a.interMod c.start).2 ∧
      ∃ j, c.stop = c.start + ((a.interMod c.start).1 + (a.interMod c.start).2 * u j)) ∧
    (∀ e ∈ s.queue, e.partner = none → ∃ a t, inds[e.id.toNat]? = some a ∧ t₀ ≤ t ∧ t ≤ s.t ∧ 0 < (a.activMod t).2 ∧
      ∃ j, e.time = t + ((a.activMod t).1 + (a.activMod t).2 * u j)) ∧
    ∀ c ∈ s.events, c ∈ s.log := by
  set sim := simOf inds t₀ t₁ m method with hsim
  set d := drawsOf inds u tg pick with hd
  have hg : Good sim d := hf.good
  have hn : sim.n = inds.length := simOf_n inds t₀ t₁ m method
  have hI := run_inv hv hg hs
  have hlog : ∀ c ∈ s.log, ∃ k x, d.inter k c.src c.start = some x ∧ c.stop = c.start + x := by
    refine run_ind hv hg (P := fun s => ∀ c ∈ s.log, ∃ k x, d.inter k c.src c.start = some x ∧ c.stop = c.start + x)
      ?_ ?_ hs
    · intro s h
      rw [(initEvents_adds _ h).2.2.1]
      intro c hc
      simp [fresh] at hc
    · intro s s' hI h hst
      rcases step_adds hv hg (fun e he => (hI.queue e he).2) hst with ⟨rfl, -⟩ | ⟨-, e, -, ht, -, h'⟩
      · exact h
      · rcases h' with ⟨-, -, ⟨new, l, p⟩, -⟩ | ⟨q, -, l, -⟩
        · intro c hc
          rw [l] at hc
          rcases List.mem_append.1 hc with hc | hc
          · exact h c hc
          · obtain ⟨⟨b1, k, x, b2, b3⟩, -⟩ := p c hc
            rw [← b1] at b2 b3
            exact ⟨k, x, b2, b3⟩
        · rw [l]; exact h
  have hque : ∀ e ∈ s.queue, Drawn d t₀ s.t e := by
    refine run_ind hv hg (P := fun s => ∀ e ∈ s.queue, Drawn d t₀ s.t e) ?_ ?_ hs
    · intro s h
      obtain ⟨t, -, -, -, -, new, q, -, o⟩ := initEvents_adds _ h
      intro e he hp
      rw [q] at he
      rcases List.mem_append.1 he with he | he
      · obtain ⟨-, k, x, h1, h2⟩ := o e he
        exact ⟨k, t₀, x, le_rfl, le_of_eq t.symm, h1, h2⟩
      · simp [fresh] at he
    · intro s s' hI h hst
      have hmono := (step_inv hv hg hI hst).2
      have hold : ∀ e ∈ s.queue, Drawn d t₀ s'.t e := by
        intro e he hp
        obtain ⟨k, t', x, h1, h2, h3⟩ := h e he hp
        exact ⟨k, t', x, h1, h2.trans hmono, h3⟩
      rcases step_adds hv hg (fun e he => (hI.queue e he).2) hst with ⟨rfl, -⟩ | ⟨-, e, -, ht, -, h'⟩
      · exact h
      · rcases h' with ⟨-, -, -, hq, -⟩ | ⟨q, -, -, hq, -⟩
        · intro e' he' hp
          rcases hq e' he' with hq | hq | ⟨k, x, h1, rfl⟩
          · exact hold e' hq hp
          · exact absurd hp (by obtain ⟨q, h, -⟩ := hq.1; rw [h]; simp)
          · exact ⟨k, s'.t, x, hI.time.trans hmono, le_rfl, h1, rfl⟩
        · intro e' he'
          exact hold e' (hq e' he')
  have hwrap : ∀ i ∈ sim.ids, wrap inds.length i = i.toNat := fun i hi => wrap_nonneg (hv.bounds hi).1
  refine ⟨?_, ?_, fun c hc => hI.log.mem_iff.2 (List.mem_append.2 (.inl hc))⟩
  · intro c hc
    obtain ⟨j, x, hx, hstop⟩ := hlog c hc
    obtain ⟨a, ha, h1, rfl⟩ := inter_some hx
    rw [hwrap _ (hI.formed c hc).1.src] at ha
    exact ⟨a, ha, h1, j, hstop⟩
  · intro e he hp
    obtain ⟨j, t, x, h1, h2, hx, h3⟩ := hque e he hp
    obtain ⟨a, ha, h4, rfl⟩ := activ_some hx
    rw [hwrap _ (hI.queue e he).2] at ha
    exact ⟨a, t, ha, h1, h2, h4, j, h3⟩

/-- The individuals are listed in the order of their IDs. -/
def Ordered (inds : List (Indiv K)) : Prop := ∀ (i : Nat) (a : Indiv K), inds[i]? = some a → a.id = (i : Int)

/-- **C97 (partial)**.  If the individuals are listed in the order of their IDs, everybody acts with their
own parameters and in their own group.  Missing: other orders, which the constructor accepts. -/
theorem C97_own_partial {inds : List (Indiv K)} {t₀ t₁ : K} {m : Nat} {method : Method K} {u : Nat → K} {tg pick}
    (hord : Ordered inds) (hv : Valid (simOf inds t₀ t₁ m method)) (hf : Fine inds (simOf inds t₀ t₁ m method) u tg pick)
    {k : Nat} {s : St K}
    (hs : run (simOf inds t₀ t₁ m method) (drawsOf inds u tg pick) k (fresh (simOf inds t₀ t₁ m method)) = .ok s) :
    (∀ c ∈ s.events, ∃ a ∈ inds, ∃ b ∈ inds, a.id = c.src ∧ b.id = c.tgt ∧ a.id ≠ b.id ∧
      (∃ j, c.stop = c.start + ((a.interMod c.start).1 + (a.interMod c.start).2 * u j)) ∧
      match method with
      | .uniform => True
      | .withinGroup => a.group = b.group
      | .block probs => probs a.group.toNat b.group.toNat ≠ 0
      | .blockMod f => 0 < f c.start a.group.toNat b.group.toNat
      | .other => False) ∧
    ∀ e ∈ s.queue, e.partner = none → ∃ a ∈ inds, a.id = e.id ∧ ∃ t, t₀ ≤ t ∧ t ≤ s.t ∧
      ∃ j, e.time = t + ((a.activMod t).1 + (a.activMod t).2 * u j) := by
  obtain ⟨h1, h2, h3⟩ := C97_positions hv hf hs
  have hI := run_inv hv hf.good hs
  have hpos : ∀ i ∈ (simOf inds t₀ t₁ m method).ids, ∃ a ∈ inds, inds[i.toNat]? = some a ∧ a.id = i ∧
      a.group = groupOf (simOf inds t₀ t₁ m method) i := by
    intro i hi
    have hb := hv.bounds hi
    rw [simOf_n] at hb
    have hlt : i.toNat < inds.length := by omega
    refine ⟨inds[i.toNat], List.getElem_mem hlt, List.getElem?_eq_getElem hlt, ?_, ?_⟩
    · rw [hord i.toNat _ (List.getElem?_eq_getElem hlt)]
      omega
    · unfold groupOf simOf
      simp [hlt]
  constructor
  · intro c hc
    have hlog := h3 c hc
    have hw := (hI.formed c hlog).1
    obtain ⟨a, ha, ha1, ha2, ha3⟩ := hpos _ hw.src
    obtain ⟨b, hb, -, hb2, hb3⟩ := hpos _ hw.tgt
    obtain ⟨a', ha', -, j, hj⟩ := h1 c hlog
    rw [ha1] at ha'
    cases ha'
    refine ⟨a, ha, b, hb, ha2, hb2, ?_, ⟨j, hj⟩, ?_⟩
    · rw [ha2, hb2]; exact hw.different
    · have := hw.allowed
      unfold Allowed at this
      rw [← ha3, ← hb3] at this
      cases method with
      | uniform => trivial
      | withinGroup => exact this.symm
      | block probs => exact this
      | blockMod f => exact this
      | other => exact this
  · intro e he hp
    obtain ⟨a, t, ha, h4, h5, -, h6⟩ := h2 e he hp
    obtain ⟨b, hb, hb1, hb2, -⟩ := hpos _ (hI.queue e he).2
    rw [hb1] at ha
    cases ha
    exact ⟨a, hb, hb2, t, h4, h5, h6⟩

/-- **C97 (violated)**.  The groups are those of the positions: if the individuals with the IDs `i` and `j`
have different groups whenever the individuals at the positions `i` and `j` have the same one, then with
the method that stays within groups every contact joins different groups. -/
theorem C97_groups_violated {inds : List (Indiv K)} {t₀ t₁ : K} {m : Nat} {u : Nat → K} {tg pick}
    (hv : Valid (simOf inds t₀ t₁ m .withinGroup)) (hf : Fine inds (simOf inds t₀ t₁ m .withinGroup) u tg pick)
    (hmix : ∀ (i j : Nat) a b, i ≠ j → inds[i]? = some a → inds[j]? = some b → a.group = b.group →
      ∀ x ∈ inds, ∀ y ∈ inds, x.id = (i : Int) → y.id = (j : Int) → x.group ≠ y.group)
    {k : Nat} {s : St K}
    (hs : run (simOf inds t₀ t₁ m .withinGroup) (drawsOf inds u tg pick) k
      (fresh (simOf inds t₀ t₁ m .withinGroup)) = .ok s) :
    ∀ c ∈ s.events, ∀ x ∈ inds, ∀ y ∈ inds, x.id = c.src → y.id = c.tgt → x.group ≠ y.group := by
  intro c hc x hx y hy hxi hyi
  have hI := run_inv hv hf.good hs
  have hw := (hI.formed c (hI.log.mem_iff.2 (List.mem_append.2 (.inl hc)))).1
  have h1 := hv.bounds hw.src
  have h2 := hv.bounds hw.tgt
  rw [simOf_n] at h1 h2
  have l1 : c.src.toNat < inds.length := by omega
  have l2 : c.tgt.toNat < inds.length := by omega
  have hal : groupOf (simOf inds t₀ t₁ m .withinGroup) c.tgt = groupOf (simOf inds t₀ t₁ m .withinGroup) c.src := hw.allowed
  have hne := hw.different
  refine hmix c.src.toNat c.tgt.toNat _ _ (by omega) (List.getElem?_eq_getElem l1) (List.getElem?_eq_getElem l2) ?_
    x hx y hy (by omega) (by omega)
  unfold groupOf simOf at hal
  simp [l1, l2] at hal
  exact hal.symm

/-! ## Concrete populations -/

/-- An individual with constant parameters. -/
def exIndiv (id group : Int) (interLoc : ℚ) : Indiv ℚ :=
  ⟨id, group, ⟨interLoc, 1⟩, ⟨0, 5⟩, fun _ => (interLoc, 1), fun _ => (0, 5)⟩

/-- IDs 0, 2, 1, 3: the individuals 0 and 2 have group 0, the individuals 1 and 3 have group 1. -/
def exMixed : List (Indiv ℚ) := [exIndiv 0 0 0, exIndiv 2 0 10, exIndiv 1 1 0, exIndiv 3 1 0]

def exMixedSim : Sim ℚ := simOf exMixed 0 100 1 .withinGroup

def exTape (k : Nat) : ℚ := [20, 20, 0, 20, 20, 0, 0].getD k 7

theorem exMixed_valid : Valid exMixedSim where
  accepted := by decide +kernel
  ids := by decide +kernel
  groups := by
    intro k _
    show 0 ≤ (exMixed.map (·.group)).getD k 0
    rcases k with _ | _ | _ | _ | k <;> simp [exMixed, exIndiv]

theorem exMixed_groups : exMixedSim.nGroups = 2 := by decide +kernel

open Classical in
theorem exMixed_fine : Fine exMixed exMixedSim exTape (fun _ p => if 0 < p 0 then 0 else 1) (fun _ l => l.headD 0) where
  tape := by
    intro k
    unfold exTape
    rcases k with _ | _ | _ | _ | _ | _ | _ | k <;> norm_num
  activ := by
    intro a ha t
    simp only [exMixed, List.mem_cons, List.not_mem_nil, or_false] at ha
    rcases ha with rfl | rfl | rfl | rfl <;> simp [exIndiv]
  inter := by
    intro a ha t
    simp only [exMixed, List.mem_cons, List.not_mem_nil, or_false] at ha
    rcases ha with rfl | rfl | rfl | rfl <;> simp [exIndiv]
  target := by
    intro k p h0 h1
    rw [exMixed_groups] at *
    rw [Finset.sum_range_succ, Finset.sum_range_one] at h1
    split
    · next h => exact ⟨by omega, h⟩
    · next h =>
      refine ⟨by omega, ?_⟩
      have := h0 0 (by omega)
      have h2 : p 0 = 0 := le_antisymm (not_lt.1 h) this
      rw [h2, zero_add] at h1
      rw [h1]
      exact one_pos
  pick := by
    intro k l hl
    cases l with
    | nil => exact absurd rfl hl
    | cons a l => simp

open Classical in
/-- The draws of the example. -/
noncomputable def exMixedDraws : Draws ℚ :=
  drawsOf exMixed exTape (fun _ p => if 0 < p 0 then 0 else 1) (fun _ l => l.headD 0)

/-- A run of that population: individual 1, of group 1, meets individual 0, of group 0, although contacts
should stay within groups, and the contact lasts 10, the location of individual 2; that of individual 1
is 0. -/
theorem C97_example_violated : ∃ s, run exMixedSim exMixedDraws 2 (fresh exMixedSim) = .ok s ∧ s.events = [⟨1, 0, 0, 10⟩] ∧
    (∀ x ∈ exMixed, ∀ y ∈ exMixed, x.id = 1 → y.id = 0 → x.group ≠ y.group ∧ x.interMod 0 = (0, 1)) := by
  have hsame : run exMixedSim exMixedDraws 2 (fresh exMixedSim) =
      run exMixedSim (drawsOf exMixed exTape (fun _ _ => 0) (fun _ l => l.headD 0)) 2 (fresh exMixedSim) := by
    rfl
  have h : (match run exMixedSim (drawsOf exMixed exTape (fun _ _ => 0) (fun _ l => l.headD 0)) 2 (fresh exMixedSim) with
    | .ok s => s.events
    | .error _ => []) = [⟨1, 0, 0, 10⟩] := by decide +kernel
  rw [hsame]
  split at h
  · next s hs =>
    refine ⟨s, hs, h, ?_⟩
    intro x hx y hy h1 h0
    simp only [exMixed, List.mem_cons, List.not_mem_nil, or_false] at hx hy
    rcases hx with rfl | rfl | rfl | rfl <;> rcases hy with rfl | rfl | rfl | rfl <;>
      simp_all [exIndiv]
  · cases h

/-- All contacts of that population join different groups. -/
example {k : Nat} {s : St ℚ} (hs : run exMixedSim exMixedDraws k (fresh exMixedSim) = .ok s) :
    ∀ c ∈ s.events, ∀ x ∈ exMixed, ∀ y ∈ exMixed, x.id = c.src → y.id = c.tgt → x.group ≠ y.group := by
  refine C97_groups_violated exMixed_valid exMixed_fine ?_ hs
  intro i j a b hij ha hb hab x hx y hy hxi hyj
  have hi : i < 4 := by
    obtain ⟨h, -⟩ := List.getElem?_eq_some_iff.1 ha
    exact h
  have hj : j < 4 := by
    obtain ⟨h, -⟩ := List.getElem?_eq_some_iff.1 hb
    exact h
  simp only [exMixed, List.mem_cons, List.not_mem_nil, or_false] at hx hy
  interval_cases i <;> interval_cases j <;>
    simp [exMixed] at ha hb <;> subst ha hb <;> simp [exIndiv] at hab hij <;>
    rcases hx with rfl | rfl | rfl | rfl <;> rcases hy with rfl | rfl | rfl | rfl <;>
      simp_all [exIndiv]

/-- Listed in order, the same individuals meet the hypotheses of `C97_own_partial`. -/
example : Ordered [exIndiv 0 0 0, exIndiv 1 1 0, exIndiv 2 0 10, exIndiv 3 1 0] := by
  intro i a ha
  have hi : i < 4 := by
    obtain ⟨h, -⟩ := List.getElem?_eq_some_iff.1 ha
    exact h
  interval_cases i <;> simp at ha <;> subst ha <;> rfl

end Verif.SynthRuns
