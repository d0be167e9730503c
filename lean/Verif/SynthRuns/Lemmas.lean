import Verif.SynthRuns.Model

/-!
# What a pass of the simulation adds
-/

set_option linter.dupNamespace false

namespace Verif.SynthRuns

open Verif.Synth

variable {K : Type} [Field K] [LinearOrder K] [IsStrictOrderedRing K]

/-- A contact that begins at time `t` with a duration drawn by the given tape. -/
def Begun (d : Draws K) (t : K) (c : Contact K) : Prop :=
  c.start = t ∧ ∃ k x, d.inter k c.src t = some x ∧ c.stop = t + x

/-- An activation drawn at some earlier time. -/
def Drawn (d : Draws K) (t₀ t : K) (e : Ev K) : Prop :=
  e.partner = none → ∃ k t' x, t₀ ≤ t' ∧ t' ≤ t ∧ d.activ k e.id t' = some x ∧ e.time = t' + x

theorem interact_adds {sim : Sim K} {d : Draws K} (hv : Valid sim) (hg : Good sim d) {i : Int} (hi : i ∈ sim.ids)
    {s s' : St K} (hs : interact sim d i s = .ok s') :
    s'.t = s.t ∧ s'.events = s.events ∧ (∃ new, s'.log = s.log ++ new ∧ ∀ c ∈ new, Begun d s.t c ∧
        c.src = i ∧ c.tgt ∈ sim.ids ∧ s.A i.toNat c.tgt.toNat = false) ∧
      (∃ new, s'.queue = new ++ s.queue ∧ ∀ e ∈ new,
        (∃ q, e.partner = some q ∧ e.id = i ∧ q ∈ sim.ids ∧ s.A i.toNat q.toNat = false) ∧ s.t ≤ e.time) ∧
      ∀ a b, s.A a b = true → s'.A a b = true := by
  unfold interact at hs
  split at hs
  · cases hs
  · next s1 hn =>
    cases hs
    obtain ⟨⟨c, rfl⟩, -⟩ := newPartner_chosen hv hg hi hn
    exact ⟨rfl, rfl, ⟨[], by simp, by simp⟩, ⟨[], by simp, by simp⟩, fun _ _ h => h⟩
  · next q s1 hn =>
    obtain ⟨⟨c, e⟩, hq⟩ := newPartner_chosen hv hg hi hn
    simp only at e
    subst e
    obtain ⟨hqi, hne, hA, -⟩ := hq q rfl
    split at hs
    · cases hs
    next x hx =>
    cases hs
    have hx0 := hg.inter _ _ _ _ hx
    refine ⟨rfl, rfl, ⟨_, rfl, ?_⟩, ⟨[⟨s.t + x, i, some q⟩], rfl, ?_⟩, ?_⟩
    · intro c hc
      rw [List.mem_singleton] at hc
      subst hc
      refine ⟨⟨rfl, _, _, hx, rfl⟩, rfl, hqi, ?_⟩
      rw [wrap_nonneg (hv.bounds hi).1, wrap_nonneg (hv.bounds hqi).1] at hA
      exact hA
    · intro e he
      rw [List.mem_singleton] at he
      subst he
      rw [wrap_nonneg (hv.bounds hi).1, wrap_nonneg (hv.bounds hqi).1] at hA
      exact ⟨⟨q, rfl, rfl, hqi, hA⟩, le_add_of_nonneg_right hx0⟩
    · intro a b h
      show setAt s.A _ _ true a b = true
      unfold setAt
      split
      · rfl
      · exact h

theorem interactions_adds {sim : Sim K} {d : Draws K} (hv : Valid sim) (hg : Good sim d) {i : Int} (hi : i ∈ sim.ids) :
    ∀ (k : Nat) {s s' : St K}, interactions sim d i k s = .ok s' →
      s'.t = s.t ∧ s'.events = s.events ∧ (∃ new, s'.log = s.log ++ new ∧ ∀ c ∈ new, Begun d s.t c ∧
        c.src = i ∧ c.tgt ∈ sim.ids ∧ s.A i.toNat c.tgt.toNat = false) ∧
      (∃ new, s'.queue = new ++ s.queue ∧ ∀ e ∈ new,
        (∃ q, e.partner = some q ∧ e.id = i ∧ q ∈ sim.ids ∧ s.A i.toNat q.toNat = false) ∧ s.t ≤ e.time) ∧
      ∀ a b, s.A a b = true → s'.A a b = true
  | 0, s, s', hs => by
    cases hs
    exact ⟨rfl, rfl, ⟨[], by simp, by simp⟩, ⟨[], by simp, by simp⟩, fun _ _ h => h⟩
  | k + 1, s, s', hs => by
    unfold interactions at hs
    split at hs
    · cases hs
    next s1 h1 =>
    obtain ⟨t1, e1, ⟨n1, l1, p1⟩, ⟨q1, r1, o1⟩, a1⟩ := interact_adds hv hg hi h1
    obtain ⟨t2, e2, ⟨n2, l2, p2⟩, ⟨q2, r2, o2⟩, a2⟩ := interactions_adds hv hg hi k hs
    refine ⟨t2.trans t1, e2.trans e1, ⟨n1 ++ n2, by rw [l2, l1, List.append_assoc], ?_⟩,
      ⟨q2 ++ q1, by rw [r2, r1, List.append_assoc], ?_⟩, fun a b h => a2 a b (a1 a b h)⟩
    · intro c hc
      rcases List.mem_append.1 hc with hc | hc
      · exact p1 c hc
      · obtain ⟨hb, h1, h2, h3⟩ := p2 c hc
        rw [t1] at hb
        refine ⟨hb, h1, h2, ?_⟩
        by_contra hne
        rw [Bool.not_eq_false] at hne
        rw [a1 _ _ hne] at h3
        cases h3
    · intro e he
      rcases List.mem_append.1 he with he | he
      · obtain ⟨⟨q, h1, h2, h3, h4⟩, h5⟩ := o2 e he
        rw [t1] at h5
        refine ⟨⟨q, h1, h2, h3, ?_⟩, h5⟩
        by_contra hne
        rw [Bool.not_eq_false] at hne
        rw [a1 _ _ hne] at h4
        cases h4
      · exact o1 e he

theorem putActivation_adds {d : Draws K} {i : Int} {s s' : St K} (hs : putActivation d i s = .ok s') :
    s'.t = s.t ∧ s'.events = s.events ∧ s'.log = s.log ∧ s'.A = s.A ∧ s'.last = s.last ∧
      ∃ k x, d.activ k i s.t = some x ∧ s'.queue = ⟨s.t + x, i, none⟩ :: s.queue := by
  unfold putActivation at hs
  split at hs
  · cases hs
  next x hx =>
  cases hs
  exact ⟨rfl, rfl, rfl, rfl, rfl, _, x, hx, rfl⟩

/-- What one pass does: nothing, or an activation, or the end of a contact. -/
theorem step_adds {sim : Sim K} {d : Draws K} (hv : Valid sim) (hg : Good sim d)
    {s s' : St K} (hq : ∀ e ∈ s.queue, e.id ∈ sim.ids) (hs : step sim d s = .ok s') :
    (s' = s ∧ (sim.tEnd ≤ s.t ∨ s.queue = [])) ∨ s.t < sim.tEnd ∧ ∃ e ∈ s.queue, s'.t = e.time ∧ (∀ e' ∈ s.queue, e.time ≤ e'.time) ∧
      ((e.partner = none ∧ s'.events = s.events ∧ (∃ new, s'.log = s.log ++ new ∧ ∀ c ∈ new, Begun d s'.t c ∧
          c.src = e.id ∧ c.tgt ∈ sim.ids ∧ s.A e.id.toNat c.tgt.toNat = false) ∧
        (∀ e' ∈ s'.queue, e' ∈ s.queue ∨
          (∃ q, e'.partner = some q ∧ e'.id = e.id ∧ q ∈ sim.ids ∧ s.A e.id.toNat q.toNat = false) ∧ s'.t ≤ e'.time ∨
          ∃ k x, d.activ k e.id s'.t = some x ∧ e' = ⟨s'.t + x, e.id, none⟩) ∧
        (∀ a b, s.A a b = true → s'.A a b = true)) ∨
      ∃ q, e.partner = some q ∧ s'.log = s.log ∧ (∀ e' ∈ s'.queue, e' ∈ s.queue) ∧
        s'.events = s.events ++ [⟨e.id, q, s.last (wrap sim.n e.id) (wrap sim.n q), s'.t⟩] ∧
        s'.A = setAt s.A (wrap sim.n e.id) (wrap sim.n q) false) := by
  unfold step at hs
  split at hs
  · next h => cases hs; exact .inl ⟨rfl, .inl h⟩
  next hlt =>
  split at hs
  · next h => cases hs; exact .inl ⟨rfl, .inr (popMin_none h)⟩
  next e r hp =>
  obtain ⟨hperm, hmin⟩ := popMin_some hp
  have hmem : e ∈ s.queue := hperm.mem_iff.2 List.mem_cons_self
  have hsub : ∀ e' ∈ r, e' ∈ s.queue := fun e' h => hperm.mem_iff.2 (List.mem_cons_of_mem _ h)
  have hle : ∀ e' ∈ s.queue, e.time ≤ e'.time := by
    intro e' he'
    rcases List.mem_cons.1 (hperm.mem_iff.1 he') with rfl | h
    · exact le_rfl
    · exact hmin e' h
  refine .inr ⟨not_le.1 hlt, e, hmem, ?_⟩
  simp only at hs
  split at hs
  · next hpart =>
    split at hs
    · cases hs
    next s1 h1 =>
    obtain ⟨t1, e1, l1, a1, -, k, x, hx, q1⟩ := putActivation_adds h1
    obtain ⟨t2, e2, ⟨n2, l2, p2⟩, ⟨q2, r2, o2⟩, a2⟩ := interactions_adds hv hg (hq e hmem) _ hs
    have ht : s'.t = e.time := t2.trans t1
    have ht1 : s1.t = e.time := t1
    refine ⟨ht, hle, .inl ⟨hpart, e2.trans e1, ⟨n2, by rw [l2, l1], ?_⟩, ?_, ?_⟩⟩
    · intro c hc
      obtain ⟨b, h1, h2, h3⟩ := p2 c hc
      rw [ht1] at b
      rw [ht]
      rw [a1] at h3
      exact ⟨b, h1, h2, h3⟩
    · intro e' he'
      rw [r2] at he'
      rcases List.mem_append.1 he' with h | h
      · have := o2 e' h
        rw [ht1, a1] at this
        rw [ht]
        exact .inr (.inl this)
      · rw [q1] at h
        rcases List.mem_cons.1 h with rfl | h
        · right; right
          refine ⟨k, x, ?_, ?_⟩
          · rw [ht]; exact hx
          · rw [ht]
        · exact .inl (hsub e' h)
    · intro a b h
      apply a2
      rw [a1]
      exact h
  · next q hpart =>
    cases hs
    exact ⟨rfl, hle, .inr ⟨q, hpart, rfl, hsub, rfl, rfl⟩⟩

/-- A property kept by every pass holds after a run; the property may refer to the passes. -/
theorem run_ind {sim : Sim K} {d : Draws K} (hv : Valid sim) (hg : Good sim d) {P : St K → Prop}
    (h0 : ∀ s, initEvents d sim.ids { fresh sim with t := sim.tStart } = .ok s → P s)
    (h1 : ∀ s s', Inv sim s → P s → step sim d s = .ok s' → P s') {k : Nat} {s : St K}
    (hs : run sim d k (fresh sim) = .ok s) : P s := by
  unfold run at hs
  split at hs
  · cases hs
  next s1 hi =>
  have hI := (initEvents_inv hg sim.ids (fun _ h => h) (fresh_inv sim) hi).1
  have hpass : ∀ (k : Nat) {s s' : St K}, Inv sim s → P s → passes sim d k s = .ok s' → P s' := by
    intro k
    induction k with
    | zero => intro s s' _ h hs; cases hs; exact h
    | succ k ih =>
      intro s s' hI h hs
      unfold passes at hs
      split at hs
      · cases hs
      · next s2 h2 => exact ih (step_inv hv hg hI h2).1 (h1 _ _ hI h h2) hs
  exact hpass k hI (h0 _ hi) hs

theorem initEvents_adds {d : Draws K} : ∀ (l : List Int) {s s' : St K}, initEvents d l s = .ok s' →
    s'.t = s.t ∧ s'.events = s.events ∧ s'.log = s.log ∧ s'.A = s.A ∧ s'.last = s.last ∧
      ∃ new, s'.queue = new ++ s.queue ∧ new.map (·.id) = l.reverse ∧
        ∀ e ∈ new, e.partner = none ∧ ∃ k x, d.activ k e.id s.t = some x ∧ e.time = s.t + x
  | [], s, s', h => by cases h; exact ⟨rfl, rfl, rfl, rfl, rfl, [], by simp, by simp, by simp⟩
  | i :: l, s, s', h => by
    unfold initEvents at h
    split at h
    · cases h
    next s1 h1 =>
    obtain ⟨t1, e1, l1, a1, b1, k, x, hx, q1⟩ := putActivation_adds h1
    obtain ⟨t2, e2, l2, a2, b2, new, q2, m2, o2⟩ := initEvents_adds l h
    refine ⟨t2.trans t1, e2.trans e1, l2.trans l1, a2.trans a1, b2.trans b1, new ++ [⟨s.t + x, i, none⟩], ?_, ?_, ?_⟩
    · rw [q2, q1]; simp
    · simp [m2]
    · intro e he
      rcases List.mem_append.1 he with he | he
      · rw [t1] at o2; exact o2 e he
      · rw [List.mem_singleton] at he
        subst he
        exact ⟨rfl, k, x, hx, rfl⟩

end Verif.SynthRuns
