import Mathlib.Tactic.IntervalCases
import Verif.Synth.Props

/-!
# C108: the example with alternating steps

`make_step_block_probs` (`src/flowstab/synth_temp_network.py:662-706`), the time-dependent
probabilities of the more advanced example at the end of the module, and the simulation run with them.
-/

set_option linter.dupNamespace false
set_option linter.unusedSectionVars false

namespace Verif.Synth

variable {K : Type} [Field K] [LinearOrder K] [IsStrictOrderedRing K]

/-! ## Model -/

/-- `np.array` of three rows with three entries. -/
def mat3 (r : List (List K)) : Nat → Nat → K := fun a b => (r.getD a []).getD b 0

/-- `block_mod_func(t)` of `make_step_block_probs(deltat1, deltat2, m1, p1)` (lines 671-704): the
matrix, and whether the warning is printed. -/
def stepBlock (Δ1 Δ2 m1 p1 t : K) : (Nat → Nat → K) × Bool :=
  let m2 := (1 - m1) / 2
  let p2 := 1 - p1
  let ex12 := mat3 [[p2, p1, 0], [p1, p2, 0], [0, 0, 0]]
  let ex23 := mat3 [[0, 0, 0], [0, p2, p1], [0, p1, p2]]
  let ex13 := mat3 [[p2, 0, p1], [0, 0, 0], [p1, 0, p2]]
  let I := mat3 [[m1, m2, m2], [m2, m1, m2], [m2, m2, m1]]
  if 0 ≤ t ∧ t < Δ1 then (I, false)
  else if Δ1 ≤ t ∧ t < Δ1 + Δ2 then (ex12, false)
  else if Δ1 + Δ2 ≤ t ∧ t < 2 * Δ1 + Δ2 then (I, false)
  else if 2 * Δ1 + Δ2 ≤ t ∧ t < 2 * (Δ1 + Δ2) then (ex23, false)
  else if 2 * (Δ1 + Δ2) ≤ t ∧ t < 2 * (Δ1 + Δ2) + Δ1 then (I, false)
  else if 2 * (Δ1 + Δ2) + Δ1 ≤ t ∧ t ≤ 3 * (Δ1 + Δ2) then (ex13, false)
  else (I, true)

/-- The simulation of the example (lines 708-726), with any population and any times. -/
def stepSim (ids : List Int) (group : Nat → Int) (tStart tEnd : K) (m : Nat) (Δ1 Δ2 m1 p1 : K) : Sim K :=
  { ids := ids, group := group, tStart := tStart, tEnd := tEnd, m := m
    method := .blockMod fun t => (stepBlock Δ1 Δ2 m1 p1 t).1 }

/-! ## Specification -/

/-- The pair of groups of the `k`th exchange. -/
def pairOf (k : Nat) : Nat × Nat := if k = 0 then (0, 1) else if k = 1 then (1, 2) else (0, 2)

/-- The `k`th period begins with a step of length `Δ1` in which the groups mostly keep to
themselves. -/
def InWithin (Δ1 Δ2 : K) (k : Nat) (t : K) : Prop := k * (Δ1 + Δ2) ≤ t ∧ t < k * (Δ1 + Δ2) + Δ1

/-- It ends with a step of length `Δ2` in which two groups exchange.  The last moment belongs to
it. -/
def InExchange (Δ1 Δ2 : K) (k : Nat) (t : K) : Prop :=
  k * (Δ1 + Δ2) + Δ1 ≤ t ∧ (t < (k + 1) * (Δ1 + Δ2) ∨ k = 2 ∧ t = 3 * (Δ1 + Δ2))

/-! ## Every recorded contact begins before the end -/

theorem step_log {sim : Sim K} {d : Draws K} (hv : Valid sim) (hg : Good sim d) {s s' : St K} (h : Inv sim s)
    (hs : step sim d s = .ok s') : s'.events = s.events ∨ s.t < sim.tEnd ∧ s'.log = s.log := by
  unfold step at hs
  split at hs
  · cases hs; exact .inl rfl
  next hlt =>
  split at hs
  · cases hs; exact .inl rfl
  next e r hp =>
  obtain ⟨ht, hid, -, -⟩ := popped h hp
  simp only at hs
  split at hs
  · split at hs
    · cases hs
    next s1 h1 =>
    rw [interactions_events hv hg hid _ hs, putActivation_events h1]
    exact .inl rfl
  · cases hs
    exact .inr ⟨not_le.1 hlt, rfl⟩

/-- **C108** In every simulation, recorded contacts begin before the end of the simulation. -/
theorem C108_start {sim : Sim K} {d : Draws K} (hv : Valid sim) (hg : Good sim d) {k : Nat} {s : St K}
    (hs : run sim d k (fresh sim) = .ok s) {c : Contact K} (hc : c ∈ s.events) :
    sim.tStart ≤ c.start ∧ c.start < sim.tEnd := by
  refine ⟨((C48_well_formed hv hg hs).1 c hc).2.2.2.1, ?_⟩
  revert c
  refine run_induction hv hg (P := fun s => ∀ {c : Contact K}, c ∈ s.events → c.start < sim.tEnd) ?_ ?_ hs
  · intro s _ h c hc
    rw [h] at hc
    cases hc
  · intro s s' hI h hst c hc
    rcases step_log hv hg hI hst with e | ⟨hlt, e⟩
    · rw [e] at hc; exact h hc
    · have := (step_inv hv hg hI hst).1.log.mem_iff.2 (List.mem_append.2 (.inl hc))
      rw [e] at this
      exact (hI.formed c this).2.trans_lt hlt

/-! ## Lemmas -/

theorem stepBlock_warns (Δ1 Δ2 m1 p1 t : K) (h1 : 0 ≤ Δ1) (h2 : 0 ≤ Δ2) :
    (stepBlock Δ1 Δ2 m1 p1 t).2 = false ↔ 0 ≤ t ∧ t ≤ 3 * (Δ1 + Δ2) := by
  unfold stepBlock
  simp only
  constructor
  · intro h
    split_ifs at h with a b c d e f
    · exact ⟨a.1, by linarith⟩
    · exact ⟨by linarith, by linarith⟩
    · exact ⟨by linarith, by linarith⟩
    · exact ⟨by linarith, by linarith⟩
    · exact ⟨by linarith, by linarith⟩
    · exact ⟨by linarith, f.2⟩
  · rintro ⟨h3, h4⟩
    split_ifs with a b c d e f <;> try rfl
    exfalso
    push Not at a b c d e f
    have a := a h3
    have b := b a
    have c := c b
    have d := d c
    have e := e d
    have f := f e
    linarith

/-- The rows sum to one or vanish, and no entry is negative. -/
theorem stepBlock_rows (Δ1 Δ2 m1 p1 t : K) (hm : 0 ≤ m1 ∧ m1 ≤ 1) (hp : 0 ≤ p1 ∧ p1 ≤ 1) {a : Nat} (ha : a < 3) :
    (∀ b < 3, 0 ≤ (stepBlock Δ1 Δ2 m1 p1 t).1 a b) ∧
    (∑ b ∈ Finset.range 3, (stepBlock Δ1 Δ2 m1 p1 t).1 a b = 1 ∨
      ∑ b ∈ Finset.range 3, (stepBlock Δ1 Δ2 m1 p1 t).1 a b = 0) := by
  have hm2 : 0 ≤ (1 - m1) / 2 := by linarith
  have hp2 : 0 ≤ 1 - p1 := by linarith
  unfold stepBlock
  simp only
  constructor
  · intro b hb
    split_ifs <;> interval_cases a <;> interval_cases b <;> simp [mat3, hm.1, hp.1] <;> linarith [hm.2, hp.2]
  · simp only [Finset.sum_range_succ, Finset.sum_range_zero]
    split_ifs <;> interval_cases a <;> simp [mat3] <;> (left; ring)

/-- In the time of the example the schedule is in exactly one of the steps, with its matrix. -/
theorem stepBlock_pos (Δ1 Δ2 m1 p1 t : K) (h0 : 0 ≤ t) (h3 : t ≤ 3 * (Δ1 + Δ2))
    {a b : Nat} (ha : a < 3) (hb : b < 3) (h : 0 < (stepBlock Δ1 Δ2 m1 p1 t).1 a b) :
    ∃ k < 3,
      (InWithin Δ1 Δ2 k t ∧ (m1 = 1 → a = b) ∧ (m1 = 0 → a ≠ b)) ∨
      (InExchange Δ1 Δ2 k t ∧ (a = (pairOf k).1 ∨ a = (pairOf k).2) ∧ (b = (pairOf k).1 ∨ b = (pairOf k).2) ∧
        (p1 = 1 → a ≠ b) ∧ (p1 = 0 → a = b)) := by
  have hI : ∀ {a b : Nat}, a < 3 → b < 3 →
      0 < mat3 [[m1, (1 - m1) / 2, (1 - m1) / 2], [(1 - m1) / 2, m1, (1 - m1) / 2], [(1 - m1) / 2, (1 - m1) / 2, m1]] a b →
      (m1 = 1 → a = b) ∧ (m1 = 0 → a ≠ b) := by
    intro a b ha hb h
    refine ⟨?_, ?_⟩
    all_goals rintro rfl; interval_cases a <;> interval_cases b <;> simp [mat3] at h ⊢
  unfold stepBlock at h
  simp only at h
  split_ifs at h with c1 c2 c3 c4 c5 c6
  · exact ⟨0, by omega, .inl ⟨⟨by push_cast; linarith, by push_cast; linarith⟩, hI ha hb h⟩⟩
  · refine ⟨0, by omega, .inr ⟨⟨by push_cast; linarith, .inl (by push_cast; linarith)⟩, ?_⟩⟩
    interval_cases a <;> interval_cases b <;> simp [mat3, pairOf] at h ⊢ <;> intro e <;> rw [e] at h <;> simp at h
  · exact ⟨1, by omega, .inl ⟨⟨by push_cast; linarith, by push_cast; linarith⟩, hI ha hb h⟩⟩
  · refine ⟨1, by omega, .inr ⟨⟨by push_cast; linarith, .inl (by push_cast; linarith)⟩, ?_⟩⟩
    interval_cases a <;> interval_cases b <;> simp [mat3, pairOf] at h ⊢ <;> intro e <;> rw [e] at h <;> simp at h
  · exact ⟨2, by omega, .inl ⟨⟨by push_cast; linarith, by push_cast; linarith⟩, hI ha hb h⟩⟩
  · refine ⟨2, by omega, .inr ⟨⟨by push_cast; linarith, ?_⟩, ?_⟩⟩
    · rcases c6.2.lt_or_eq with h | h
      · exact .inl (by push_cast; linarith)
      · exact .inr ⟨rfl, h⟩
    · interval_cases a <;> interval_cases b <;> simp [mat3, pairOf] at h ⊢ <;> intro e <;> rw [e] at h <;> simp at h
  · exfalso
    push Not at c1 c2 c3 c4 c5 c6
    have := c6 (c5 (c4 (c3 (c2 (c1 h0)))))
    linarith

/-! ## Properties -/

/-- **C108** With three groups and probabilities between 0 and 1 the simulation of the example never
fails, whatever is drawn, wherever it starts and ends and however long the steps are. -/
theorem C108_no_failure (ids : List Int) (group : Nat → Int) (tStart tEnd : K) (m : Nat) (Δ1 Δ2 m1 p1 : K)
    (hm : 0 ≤ m1 ∧ m1 ≤ 1) (hp : 0 ≤ p1 ∧ p1 ≤ 1) (d : Draws K)
    (hv : Valid (stepSim ids group tStart tEnd m Δ1 Δ2 m1 p1))
    (h3 : (stepSim ids group tStart tEnd m Δ1 Δ2 m1 p1).nGroups = 3)
    (hg : Good (stepSim ids group tStart tEnd m Δ1 Δ2 m1 p1) d)
    (ha : ∀ k i t, (d.activ k i t).isSome) (hi : ∀ k i t, (d.inter k i t).isSome) (k : Nat) :
    ∃ s, run (stepSim ids group tStart tEnd m Δ1 Δ2 m1 p1) d k
      (fresh (stepSim ids group tStart tEnd m Δ1 Δ2 m1 p1)) = .ok s := by
  refine C66_no_failure hv hg ⟨ha, hi, ?_⟩ k
  rw [h3]
  intro t a ha
  exact stepBlock_rows Δ1 Δ2 m1 p1 t hm hp ha

/-- **C108** If the simulation of the example takes place within the three periods, every recorded
contact begins in one of the steps of the schedule and respects it: in an exchange only the two groups
of that exchange take part, and only across the groups if `p1 = 1`; in the other steps contacts
stay in the group if `m1 = 1`. -/
theorem C108_contacts (ids : List Int) (group : Nat → Int) (tStart tEnd : K) (m : Nat) (Δ1 Δ2 m1 p1 : K)
    (hstart : 0 ≤ tStart) (hend : tEnd ≤ 3 * (Δ1 + Δ2)) (d : Draws K)
    (hv : Valid (stepSim ids group tStart tEnd m Δ1 Δ2 m1 p1))
    (h3 : (stepSim ids group tStart tEnd m Δ1 Δ2 m1 p1).nGroups = 3)
    (hg : Good (stepSim ids group tStart tEnd m Δ1 Δ2 m1 p1) d) {k : Nat} {s : St K}
    (hs : run (stepSim ids group tStart tEnd m Δ1 Δ2 m1 p1) d k
      (fresh (stepSim ids group tStart tEnd m Δ1 Δ2 m1 p1)) = .ok s)
    {c : Contact K} (hc : c ∈ s.events) :
    let a := (group c.src.toNat).toNat
    let b := (group c.tgt.toNat).toNat
    (stepBlock Δ1 Δ2 m1 p1 c.start).2 = false ∧
    ∃ k < 3,
      (InWithin Δ1 Δ2 k c.start ∧ (m1 = 1 → a = b) ∧ (m1 = 0 → a ≠ b)) ∨
      (InExchange Δ1 Δ2 k c.start ∧ (a = (pairOf k).1 ∨ a = (pairOf k).2) ∧ (b = (pairOf k).1 ∨ b = (pairOf k).2) ∧
        (p1 = 1 → a ≠ b) ∧ (p1 = 0 → a = b)) := by
  intro a b
  obtain ⟨t1, t2⟩ := C108_start hv hg hs hc
  have w := (C48_well_formed hv hg hs).1 c hc
  have hpos : 0 < (stepBlock Δ1 Δ2 m1 p1 c.start).1 a b := C65_partners hv hg hs hc
  have hlt : ∀ i ∈ ids, (group i.toNat).toNat < 3 := by
    intro i hi
    obtain ⟨b1, b2⟩ := hv.bounds hi
    have hin : i.toNat < (stepSim ids group tStart tEnd m Δ1 Δ2 m1 p1).n := by omega
    have := hv.groupBound hin
    rw [h3] at this
    have : group i.toNat < 3 := this
    omega
  have t0 : 0 ≤ c.start := hstart.trans t1
  have t3 : c.start ≤ 3 * (Δ1 + Δ2) := t2.le.trans hend
  refine ⟨?_, stepBlock_pos Δ1 Δ2 m1 p1 c.start t0 t3 (hlt _ w.1) (hlt _ w.2.1) hpos⟩
  unfold stepBlock
  simp only
  split_ifs with c1 c2 c3 c4 c5 c6 <;> try rfl
  exfalso
  push Not at c1 c2 c3 c4 c5 c6
  have := c6 (c5 (c4 (c3 (c2 (c1 t0)))))
  linarith

/-- **C108** The warning is printed exactly outside of the three periods. -/
theorem C108_warning (Δ1 Δ2 m1 p1 t : K) (h1 : 0 ≤ Δ1) (h2 : 0 ≤ Δ2) :
    (stepBlock Δ1 Δ2 m1 p1 t).2 = true ↔ t < 0 ∨ 3 * (Δ1 + Δ2) < t := by
  rw [← not_iff_not, Bool.not_eq_true, stepBlock_warns _ _ _ _ _ h1 h2]
  push Not
  rfl

/-- **C108** The docstring has the two lengths exchanged: according to it `deltat1` is the length of
the exchanging step.  For any lengths, the first exchange lasts from `deltat1` for a time `deltat2`. -/
theorem C108_documented_length_violated (Δ1 Δ2 : K) (h1 : 0 ≤ Δ1) (h2 : 0 ≤ Δ2) (t : K) (h0 : 0 ≤ t)
    (h3 : t ≤ 3 * (Δ1 + Δ2)) :
    0 < (stepBlock Δ1 Δ2 1 1 t).1 0 1 ↔ Δ1 ≤ t ∧ t < Δ1 + Δ2 := by
  unfold stepBlock
  simp only
  split_ifs with c1 c2 c3 c4 c5 c6 <;> simp [mat3]
  · intro h; linarith
  · exact c2
  · intro h; linarith
  · intro h; linarith
  · intro h; linarith
  · intro h; linarith
  · push Not at c1 c2 c3 c4 c5 c6
    have := c6 (c5 (c4 (c3 (c2 (c1 h0)))))
    linarith

/-! ## Examples -/

/-- Three groups of two individuals. -/
def stepEx (tEnd : ℚ) (m1 p1 : ℚ) : Sim ℚ := stepSim [0, 1, 2, 3, 4, 5] (fun k => (k / 2 : Nat)) 0 tEnd 1 2 3 m1 p1

/-- Times and groups from lists. -/
def stepDraws : Draws ℚ :=
  { activ := fun k _ _ => some (if k < 6 then k + 1 else 100)
    inter := fun _ _ _ => some (1 / 2)
    targetGroup := fun _ p => if 0 < p 0 then 0 else if 0 < p 1 then 1 else 2
    pick := fun _ l => l.headD 0 }

theorem stepEx_valid (tEnd m1 p1 : ℚ) : Valid (stepEx tEnd m1 p1) where
  accepted := by
    have : (stepEx tEnd m1 p1).accepted = (stepEx 0 0 0).accepted := rfl
    rw [this]
    decide +kernel
  ids := by
    intro i hi
    have h : ∀ j ∈ ([0, 1, 2, 3, 4, 5] : List Int), 0 ≤ j := by decide
    exact h i hi
  groups := fun k _ => Int.natCast_nonneg _

theorem stepEx_groups (tEnd m1 p1 : ℚ) : (stepEx tEnd m1 p1).nGroups = 3 := by
  have : (stepEx tEnd m1 p1).nGroups = (stepEx 0 0 0).nGroups := rfl
  rw [this]
  decide +kernel

/-- The hypotheses of the theorems are met. -/
example (tEnd m1 p1 : ℚ) : Good (stepEx tEnd m1 p1) stepDraws where
  activ := by
    rintro k i t x ⟨rfl⟩
    split_ifs <;> positivity
  inter := by
    rintro k i t x ⟨rfl⟩
    norm_num
  target := by
    intro k p hp hs
    rw [stepEx_groups] at hp hs ⊢
    simp only [Finset.sum_range_succ, Finset.sum_range_zero] at hs
    have h0 := hp 0 (by omega)
    have h1 := hp 1 (by omega)
    have h2 := hp 2 (by omega)
    unfold stepDraws
    simp only
    split_ifs with a b
    · exact ⟨by omega, a⟩
    · exact ⟨by omega, b⟩
    · exact ⟨by omega, by linarith⟩
  pick := by
    intro k l hl
    cases l with
    | nil => exact absurd rfl hl
    | cons a l => simp [stepDraws]

/-- A run of it: a contact within group 0 in the first step (before 2), contacts between groups 0 and
1 in the exchange (from 2 to 5), a contact within group 2 in the next step (from 5). -/
example : (match run (stepEx 15 1 1) stepDraws 11 (fresh (stepEx 15 1 1)) with
    | .ok s => decide (s.events = [⟨0, 1, 1, 3/2⟩, ⟨1, 2, 2, 5/2⟩, ⟨2, 0, 3, 7/2⟩, ⟨3, 0, 4, 9/2⟩, ⟨4, 5, 5, 11/2⟩])
    | .error _ => false) = true := by decide +kernel

end Verif.Synth
