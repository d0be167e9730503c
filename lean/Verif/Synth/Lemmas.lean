import Verif.Synth.Spec
import Mathlib.Data.List.Perm.Basic
import Mathlib.Data.List.Pairwise
import Mathlib.Algebra.Order.BigOperators.Group.Finset
import Mathlib.Algebra.Order.BigOperators.Ring.Finset
import Mathlib.Tactic.Linarith
import Mathlib.Data.Fintype.Card
import Mathlib.Data.Finset.Card

/-!
# Synthetic networks: invariant of the simulation
-/

set_option linter.dupNamespace false
set_option linter.unusedSectionVars false

namespace Verif.Synth

variable {K : Type} [Field K] [LinearOrder K] [IsStrictOrderedRing K]

/-! ## Individuals -/

theorem Valid.bounds {sim : Sim K} (h : Valid sim) {i : Int} (hi : i ∈ sim.ids) : 0 ≤ i ∧ i < sim.n := by
  have := h.accepted
  unfold Sim.accepted at this
  simp only [Bool.and_eq_true, List.all_eq_true, decide_eq_true_eq] at this
  exact ⟨h.ids i hi, this.1.1 i hi⟩

theorem Valid.nodup {sim : Sim K} (h : Valid sim) : sim.ids.Nodup := by
  have := h.accepted
  unfold Sim.accepted at this
  simp only [Bool.and_eq_true, List.all_eq_true, decide_eq_true_eq] at this
  exact this.1.2

theorem Valid.groupBound {sim : Sim K} (h : Valid sim) {k : Nat} (hk : k < sim.n) : sim.group k < sim.nGroups := by
  have := h.accepted
  unfold Sim.accepted at this
  simp only [Bool.and_eq_true, List.all_eq_true, decide_eq_true_eq] at this
  exact this.2 k (List.mem_range.2 hk)

/-- All numbers below `n` are IDs. -/
theorem Valid.covers {sim : Sim K} (h : Valid sim) {k : Nat} (hk : k < sim.n) : (k : Int) ∈ sim.ids := by
  have hsub : sim.ids ⊆ (List.range sim.n).map (fun k : Nat => (k : Int)) := by
    intro i hi
    have := h.bounds hi
    exact List.mem_map.2 ⟨i.toNat, List.mem_range.2 (by omega), by omega⟩
  have hp : sim.ids.Perm ((List.range sim.n).map (fun k : Nat => (k : Int))) := by
    refine (List.subperm_of_subset h.nodup hsub).perm_of_length_le ?_
    rw [List.length_map, List.length_range]
    exact le_rfl
  exact hp.mem_iff.2 (List.mem_map.2 ⟨k, List.mem_range.2 hk, rfl⟩)

/-- Every group below the number of groups has a member. -/
theorem Valid.groupCovers {sim : Sim K} (h : Valid sim) {g : Nat} (hg : g < sim.nGroups) :
    ∃ k < sim.n, sim.group k = g := by
  have hsub : ((List.range sim.n).map sim.group).dedup ⊆ (List.range sim.nGroups).map (fun k : Nat => (k : Int)) := by
    intro i hi
    rw [List.mem_dedup] at hi
    obtain ⟨k, hk, rfl⟩ := List.mem_map.1 hi
    rw [List.mem_range] at hk
    have h1 := h.groupBound hk
    have h2 := h.groups k hk
    exact List.mem_map.2 ⟨(sim.group k).toNat, List.mem_range.2 (by omega), by omega⟩
  have hp : ((List.range sim.n).map sim.group).dedup.Perm ((List.range sim.nGroups).map (fun k : Nat => (k : Int))) := by
    refine (List.subperm_of_subset (List.nodup_dedup _) hsub).perm_of_length_le ?_
    rw [List.length_map, List.length_range]
    exact le_rfl
  have := hp.mem_iff.2 (List.mem_map.2 ⟨g, List.mem_range.2 hg, rfl⟩)
  rw [List.mem_dedup] at this
  obtain ⟨k, hk, e⟩ := List.mem_map.1 this
  exact ⟨k, List.mem_range.1 hk, e⟩

theorem wrap_nonneg {n : Nat} {i : Int} (h : 0 ≤ i) : wrap n i = i.toNat := by
  unfold wrap
  rw [if_neg (by omega)]

/-! ## The queue -/

theorem popMin_none : ∀ {q : List (Ev K)}, popMin q = none → q = []
  | [], _ => rfl
  | e :: r, h => by
    unfold popMin at h
    split at h
    · cases h
    · split at h <;> cases h

theorem before_le {a b : Ev K} (h : a.before b = true) : a.time ≤ b.time := by
  unfold Ev.before at h
  split at h
  · next e => exact e.le
  · exact (of_decide_eq_true h).le

theorem not_before_le {a b : Ev K} (h : a.before b ≠ true) : b.time ≤ a.time := by
  unfold Ev.before at h
  split at h
  · next e => exact e.ge
  · simpa using h

theorem popMin_some : ∀ {q : List (Ev K)} {e : Ev K} {r : List (Ev K)}, popMin q = some (e, r) →
    q.Perm (e :: r) ∧ ∀ x ∈ r, e.time ≤ x.time
  | [], _, _, h => by cases h
  | x :: l, e, r, h => by
    unfold popMin at h
    split at h
    · next hn =>
      cases h
      rw [popMin_none hn]
      exact ⟨List.Perm.refl _, by simp⟩
    · next e' r' hs =>
      obtain ⟨hp, hm⟩ := popMin_some hs
      split at h
      · next hb =>
        cases h
        refine ⟨List.Perm.refl _, fun y hy => ?_⟩
        rcases List.mem_cons.1 (hp.mem_iff.1 hy) with rfl | hy
        · exact before_le hb
        · exact (before_le hb).trans (hm y hy)
      · next hb =>
        cases h
        refine ⟨(hp.cons x).trans (List.Perm.swap ..), fun y hy => ?_⟩
        rcases List.mem_cons.1 hy with rfl | hy
        · exact not_before_le hb
        · exact hm y hy

/-! ## Contacts that have begun and not ended -/

/-- The contact that an entry of the queue will record. -/
def contactOf (n : Nat) (last : Nat → Nat → K) (e : Ev K) : Option (Contact K) :=
  e.partner.map fun q => ⟨e.id, q, last (wrap n e.id) (wrap n q), e.time⟩

/-- Contacts in progress. -/
def running (sim : Sim K) (s : St K) : List (Contact K) := s.queue.filterMap (contactOf sim.n s.last)

/-- Invariant. -/
structure Inv (sim : Sim K) (s : St K) : Prop where
  time : sim.tStart ≤ s.t
  queue : ∀ e ∈ s.queue, s.t ≤ e.time ∧ e.id ∈ sim.ids
  log : s.log.Perm (s.events ++ running sim s)
  formed : ∀ c ∈ s.log, WellFormed sim c ∧ c.start ≤ s.t
  apart : s.log.Pairwise Apart
  ended : ∀ c ∈ s.events, c.stop ≤ s.t
  adj : ∀ a b : Nat, s.A a b = true ↔ ∃ c ∈ running sim s, c.src = a ∧ c.tgt = b
  once : (running sim s).Pairwise fun a b => ¬ (a.src = b.src ∧ a.tgt = b.tgt)

theorem running_mem {sim : Sim K} {s : St K} {c : Contact K} (h : c ∈ running sim s) :
    ∃ e ∈ s.queue, e.partner = some c.tgt ∧ e.id = c.src ∧ c.start = s.last (wrap sim.n c.src) (wrap sim.n c.tgt) ∧
      c.stop = e.time := by
  unfold running at h
  obtain ⟨e, he, hc⟩ := List.mem_filterMap.1 h
  unfold contactOf at hc
  rw [Option.map_eq_some_iff] at hc
  obtain ⟨q, hq, rfl⟩ := hc
  exact ⟨e, he, hq, rfl, rfl, rfl⟩

theorem Inv.runFormed {sim : Sim K} {s : St K} (h : Inv sim s) {c : Contact K} (hc : c ∈ running sim s) :
    WellFormed sim c := (h.formed c (h.log.mem_iff.2 (List.mem_append.2 (.inr hc)))).1

/-- Change of `last` outside of the running contacts. -/
theorem filterMap_last {sim : Sim K} (hv : Valid sim) (l : List (Ev K)) (last : Nat → Nat → K) (v : K) (i q : Int)
    (hi : i ∈ sim.ids) (hq : q ∈ sim.ids)
    (hf : ∀ c ∈ l.filterMap (contactOf sim.n last), c.src ∈ sim.ids ∧ c.tgt ∈ sim.ids ∧ ¬ (c.src = i ∧ c.tgt = q)) :
    l.filterMap (contactOf sim.n (setAt last (wrap sim.n i) (wrap sim.n q) v)) = l.filterMap (contactOf sim.n last) := by
  apply List.filterMap_congr
  intro e he
  unfold contactOf
  cases hp : e.partner with
  | none => rfl
  | some p =>
    have hc : (⟨e.id, p, last (wrap sim.n e.id) (wrap sim.n p), e.time⟩ : Contact K) ∈
        l.filterMap (contactOf sim.n last) := by
      refine List.mem_filterMap.2 ⟨e, he, ?_⟩
      unfold contactOf
      rw [hp]
      rfl
    obtain ⟨h1, h2, h3⟩ := hf _ hc
    simp only at h1 h2 h3
    have b1 := hv.bounds h1
    have b2 := hv.bounds h2
    have b3 := hv.bounds hi
    have b4 := hv.bounds hq
    simp only [Option.map_some]
    unfold setAt
    rw [if_neg]
    rw [wrap_nonneg b1.1, wrap_nonneg b2.1, wrap_nonneg b3.1, wrap_nonneg b4.1]
    rintro ⟨e1, e2⟩
    exact h3 ⟨by omega, by omega⟩

/-- Putting an activation into the queue. -/
theorem putActivation_inv {sim : Sim K} {d : Draws K} (hg : Good sim d) {i : Int} (hi : i ∈ sim.ids) {s s' : St K}
    (h : Inv sim s) (hs : putActivation d i s = .ok s') : Inv sim s' ∧ s'.t = s.t := by
  unfold putActivation at hs
  split at hs
  · cases hs
  next x hx =>
  cases hs
  have hr : running sim { s with queue := ⟨s.t + x, i, none⟩ :: s.queue, count := s.count + 1 } = running sim s := by
    unfold running
    simp only
    rw [List.filterMap_cons]
    rfl
  refine ⟨⟨h.time, ?_, ?_, h.formed, h.apart, h.ended, ?_, ?_⟩, rfl⟩
  · intro e he
    rcases List.mem_cons.1 he with rfl | he
    · exact ⟨le_add_of_nonneg_right (hg.activ _ _ _ _ hx), hi⟩
    · exact h.queue e he
  · rw [hr]; exact h.log
  · rw [hr]; exact h.adj
  · rw [hr]; exact h.once

theorem mem_unPartners {n : Nat} {s : St K} {i q : Int} :
    q ∈ unPartners n s i ↔ q = i ∨ ∃ c < n, s.A (wrap n i) c = true ∧ (c : Int) = q := by
  unfold unPartners
  rw [List.mem_cons, List.mem_map]
  refine or_congr Iff.rfl ?_
  constructor
  · rintro ⟨c, hc, e⟩
    rw [List.mem_filter, List.mem_range] at hc
    exact ⟨c, hc.1, hc.2, e⟩
  · rintro ⟨c, hc, ha, e⟩
    exact ⟨c, List.mem_filter.2 ⟨List.mem_range.2 hc, ha⟩, e⟩

theorem mem_members {sim : Sim K} {g q : Int} : q ∈ members sim g ↔ ∃ k < sim.n, sim.group k = g ∧ (k : Int) = q := by
  unfold members
  rw [List.mem_map]
  constructor
  · rintro ⟨c, hc, e⟩
    rw [List.mem_filter, List.mem_range] at hc
    exact ⟨c, hc.1, of_decide_eq_true hc.2, e⟩
  · rintro ⟨c, hc, ha, e⟩
    exact ⟨c, List.mem_filter.2 ⟨List.mem_range.2 hc, decide_eq_true ha⟩, e⟩

/-- What a choice of a partner does. -/
def Chosen (sim : Sim K) (i : Int) (s : St K) (r : Option Int × St K) : Prop :=
  (∃ c, r.2 = { s with count := c }) ∧
    ∀ q, r.1 = some q → q ∈ sim.ids ∧ q ≠ i ∧ s.A (wrap sim.n i) (wrap sim.n q) = false ∧ Allowed sim s.t i q

theorem drawPartner_chosen {sim : Sim K} {d : Draws K} (hv : Valid sim) (hg : Good sim d) {i : Int} {s : St K}
    {potential : List Int} (hpot : ∀ q ∈ potential, q ∈ sim.ids ∧ Allowed sim s.t i q) {c : Nat}
    {r : Option Int × St K}
    (h : drawPartner d potential (unPartners sim.n { s with count := c } i) { s with count := c } = .ok r) :
    Chosen sim i s r := by
  unfold drawPartner at h
  split at h
  · cases h
  next x xs hx =>
  cases h
  refine ⟨⟨_, rfl⟩, ?_⟩
  rintro q ⟨rfl⟩
  have hm := hg.pick c (x :: xs) (by simp)
  rw [← hx] at hm
  have hm : d.pick c (x :: xs) ∈ potential.filter fun q => decide (q ∉ unPartners sim.n { s with count := c } i) := hx ▸ hm
  rw [List.mem_filter, decide_eq_true_eq, mem_unPartners] at hm
  obtain ⟨h1, h2⟩ := hm
  rw [not_or] at h2
  have hid := (hpot _ h1).1
  have hb := hv.bounds hid
  refine ⟨hid, h2.1, ?_, (hpot _ h1).2⟩
  by_contra hA
  rw [Bool.not_eq_false] at hA
  refine h2.2 ⟨(d.pick c (x :: xs)).toNat, by omega, ?_, by omega⟩
  rw [wrap_nonneg hb.1] at hA
  exact hA

theorem newPartner_chosen {sim : Sim K} {d : Draws K} (hv : Valid sim) (hg : Good sim d) {i : Int} (hi : i ∈ sim.ids)
    {s : St K} {r : Option Int × St K} (h : newPartner sim d i s = .ok r) : Chosen sim i s r := by
  have hib := hv.bounds hi
  have hw : wrap sim.n i = i.toNat := wrap_nonneg hib.1
  have hnone : ∀ c : Nat, Chosen sim i s (none, { s with count := c }) := fun c => ⟨⟨c, rfl⟩, by simp⟩
  have hblock : ∀ p : Nat → K, (∀ q ∈ sim.ids, 0 < p (groupOf sim q).toNat → Allowed sim s.t i q) →
      drawFromBlock sim d p i s = .ok r → Chosen sim i s r := by
    intro p hp h
    unfold drawFromBlock at h
    split at h
    · cases h
    next hc =>
    simp only [Bool.or_eq_true, List.any_eq_true, decide_eq_true_eq, not_or, not_exists, not_and, List.mem_range,
      not_lt, not_not] at hc
    obtain ⟨ht, htp⟩ := hg.target s.count p hc.1 hc.2
    simp only at h
    split at h
    · cases h
    next c cs hcs =>
    split at h
    · cases h
      exact hnone _
    · refine drawPartner_chosen hv hg ?_ h
      intro q hq
      rw [← hcs, mem_members] at hq
      obtain ⟨k, hk, hkg, rfl⟩ := hq
      refine ⟨hv.covers hk, hp _ (hv.covers hk) ?_⟩
      have : groupOf sim (k : Int) = (d.targetGroup s.count p : Nat) := by
        unfold groupOf
        rw [Int.toNat_natCast]
        exact hkg
      rw [this, Int.toNat_natCast]
      exact htp
  unfold newPartner at h
  split at h
  · next hm =>
    simp only at h
    split at h
    · cases h
      exact hnone s.count
    · refine drawPartner_chosen (c := s.count) hv hg ?_ h
      intro q hq
      refine ⟨hq, ?_⟩
      unfold Allowed
      rw [hm]
      trivial
  · next hm =>
    simp only at h
    split at h
    · cases h
      exact hnone s.count
    · refine drawPartner_chosen (c := s.count) hv hg ?_ h
      intro q hq
      rw [mem_members] at hq
      obtain ⟨k, hk, hkg, rfl⟩ := hq
      refine ⟨hv.covers hk, ?_⟩
      unfold Allowed
      rw [hm]
      unfold groupOf
      simp only
      rw [Int.toNat_natCast, hkg, hw]
  · next probs hm =>
    simp only at h
    split at h
    · cases h
    · refine hblock _ ?_ h
      intro q _ hpos
      unfold Allowed
      rw [hm]
      simp only
      rw [hw] at hpos
      intro h0
      unfold groupOf at h0 hpos
      rw [h0, zero_div] at hpos
      exact lt_irrefl _ hpos
  · next f hm =>
    simp only at h
    split at h
    · cases h
      exact hnone s.count
    · refine hblock _ ?_ h
      intro q _ hpos
      unfold Allowed
      rw [hm]
      simp only
      rw [hw] at hpos
      exact hpos
  · cases h

theorem interact_inv {sim : Sim K} {d : Draws K} (hv : Valid sim) (hg : Good sim d) {i : Int} (hi : i ∈ sim.ids)
    {s s' : St K} (h : Inv sim s) (hs : interact sim d i s = .ok s') : Inv sim s' ∧ s'.t = s.t := by
  unfold interact at hs
  split at hs
  · cases hs
  · next s1 hn =>
    cases hs
    obtain ⟨⟨c, rfl⟩, -⟩ := newPartner_chosen hv hg hi hn
    exact ⟨⟨h.time, h.queue, h.log, h.formed, h.apart, h.ended, h.adj, h.once⟩, rfl⟩
  · next q s1 hn =>
    obtain ⟨⟨c, e⟩, hq⟩ := newPartner_chosen hv hg hi hn
    simp only at e
    subst e
    obtain ⟨hqi, hne, hA, hal⟩ := hq q rfl
    split at hs
    · cases hs
    next x hx =>
    cases hs
    have hx0 := hg.inter _ _ _ _ hx
    have bi := hv.bounds hi
    have bq := hv.bounds hqi
    have hnew : ∀ c ∈ running sim s, ¬ (c.src = i ∧ c.tgt = q) := by
      rintro c hc ⟨e1, e2⟩
      have : s.A i.toNat q.toNat = true := (h.adj _ _).2 ⟨c, hc, by omega, by omega⟩
      rw [wrap_nonneg bi.1, wrap_nonneg bq.1, this] at hA
      cases hA
    have hlast := filterMap_last hv s.queue s.last s.t i q hi hqi fun c hc =>
      ⟨(h.runFormed hc).src, (h.runFormed hc).tgt, hnew c hc⟩
    have hr : running sim { s with
        A := setAt s.A (wrap sim.n i) (wrap sim.n q) true
        last := setAt s.last (wrap sim.n i) (wrap sim.n q) s.t
        queue := ⟨s.t + x, i, some q⟩ :: s.queue
        count := c + 1
        log := s.log ++ [⟨i, q, s.t, s.t + x⟩] } = ⟨i, q, s.t, s.t + x⟩ :: running sim s := by
      unfold running
      simp only
      rw [List.filterMap_cons, hlast]
      have : contactOf sim.n (setAt s.last (wrap sim.n i) (wrap sim.n q) s.t) ⟨s.t + x, i, some q⟩ =
          some ⟨i, q, s.t, s.t + x⟩ := by
        unfold contactOf setAt
        simp
      rw [this]
    refine ⟨⟨h.time, ?_, ?_, ?_, ?_, h.ended, ?_, ?_⟩, rfl⟩
    · intro e he
      rcases List.mem_cons.1 he with rfl | he
      · exact ⟨le_add_of_nonneg_right hx0, hi⟩
      · exact h.queue e he
    · rw [hr]
      simp only
      refine (h.log.append_right _).trans ?_
      rw [List.append_assoc]
      exact List.Perm.append_left _ (List.perm_append_singleton _ _)
    · intro c hc
      rcases List.mem_append.1 hc with hc | hc
      · exact h.formed c hc
      · rw [List.mem_singleton] at hc
        subst hc
        exact ⟨⟨hi, hqi, hne.symm, h.time, le_add_of_nonneg_right hx0, hal⟩, le_rfl⟩
    · simp only
      rw [List.pairwise_append]
      refine ⟨h.apart, List.pairwise_singleton _ _, ?_⟩
      intro a ha b hb
      rw [List.mem_singleton] at hb
      subst hb
      intro e1 e2
      simp only at e1 e2 ⊢
      rcases List.mem_append.1 (h.log.mem_iff.1 ha) with ha | ha
      · exact .inl (h.ended a ha)
      · exact absurd ⟨e1, e2⟩ (hnew a ha)
    · intro a b
      rw [hr]
      simp only
      unfold setAt
      rw [wrap_nonneg bi.1, wrap_nonneg bq.1]
      split
      · next hab =>
        simp only [true_iff]
        exact ⟨_, List.mem_cons_self, by simp only; omega, by simp only; omega⟩
      · next hab =>
        rw [h.adj]
        constructor
        · rintro ⟨c, hc, e⟩
          exact ⟨c, List.mem_cons_of_mem _ hc, e⟩
        · rintro ⟨c, hc, e⟩
          rcases List.mem_cons.1 hc with rfl | hc
          · exfalso
            simp only at e
            omega
          · exact ⟨c, hc, e⟩
    · rw [hr, List.pairwise_cons]
      refine ⟨fun c hc e => hnew c hc ⟨e.1.symm, e.2.symm⟩, h.once⟩

theorem interactions_inv {sim : Sim K} {d : Draws K} (hv : Valid sim) (hg : Good sim d) {i : Int} (hi : i ∈ sim.ids) :
    ∀ (k : Nat) {s s' : St K}, Inv sim s → interactions sim d i k s = .ok s' → Inv sim s' ∧ s'.t = s.t
  | 0, s, s', h, hs => by
    cases hs
    exact ⟨h, rfl⟩
  | k + 1, s, s', h, hs => by
    unfold interactions at hs
    split at hs
    · cases hs
    · next s1 h1 =>
      obtain ⟨a, b⟩ := interact_inv hv hg hi h h1
      obtain ⟨a', b'⟩ := interactions_inv hv hg hi k a hs
      exact ⟨a', b'.trans b⟩

theorem perm_pairs {l l' : List (Contact K)} (h : l.Perm l')
    (hp : l.Pairwise fun a b => ¬ (a.src = b.src ∧ a.tgt = b.tgt)) :
    l'.Pairwise fun a b => ¬ (a.src = b.src ∧ a.tgt = b.tgt) :=
  (h.pairwise_iff fun hab e => hab ⟨e.1.symm, e.2.symm⟩).1 hp

/-- After an entry has been taken from the queue and before it has been treated. -/
theorem popped {sim : Sim K} {s : St K} (h : Inv sim s) {e : Ev K} {r : List (Ev K)} (hp : popMin s.queue = some (e, r)) :
    s.t ≤ e.time ∧ e.id ∈ sim.ids ∧ (∀ x ∈ r, e.time ≤ x.time ∧ x.id ∈ sim.ids) ∧
      (running sim s).Perm ((contactOf sim.n s.last e).toList ++ r.filterMap (contactOf sim.n s.last)) := by
  obtain ⟨hperm, hmin⟩ := popMin_some hp
  refine ⟨(h.queue e (hperm.mem_iff.2 List.mem_cons_self)).1, (h.queue e (hperm.mem_iff.2 List.mem_cons_self)).2,
    fun x hx => ⟨hmin x hx, (h.queue x (hperm.mem_iff.2 (List.mem_cons_of_mem _ hx))).2⟩, ?_⟩
  have := hperm.filterMap (contactOf sim.n s.last)
  unfold running
  refine this.trans ?_
  rw [List.filterMap_cons]
  cases contactOf sim.n s.last e <;> rfl

theorem step_inv {sim : Sim K} {d : Draws K} (hv : Valid sim) (hg : Good sim d) {s s' : St K} (h : Inv sim s)
    (hs : step sim d s = .ok s') : Inv sim s' ∧ s.t ≤ s'.t := by
  unfold step at hs
  split at hs
  · cases hs
    exact ⟨h, le_rfl⟩
  split at hs
  · cases hs
    exact ⟨h, le_rfl⟩
  next e r hp =>
  obtain ⟨ht, hid, hr, hrun⟩ := popped h hp
  simp only at hs
  split at hs
  · next hpart =>
    have hmid : Inv sim { s with t := e.time, queue := r } := by
      have hco : contactOf sim.n s.last e = none := by
        unfold contactOf
        rw [hpart]
        rfl
      rw [hco] at hrun
      have hrun : (running sim s).Perm (running sim { s with t := e.time, queue := r }) := hrun
      refine ⟨h.time.trans ht, hr, h.log.trans (List.Perm.append_left _ hrun), ?_, h.apart, ?_, ?_,
        perm_pairs hrun h.once⟩
      · intro c hc
        exact ⟨(h.formed c hc).1, (h.formed c hc).2.trans ht⟩
      · intro c hc
        exact (h.ended c hc).trans ht
      · intro a b
        rw [show ({ s with t := e.time, queue := r } : St K).A a b = s.A a b from rfl, h.adj]
        exact exists_congr fun c => and_congr_left fun _ => hrun.mem_iff
    split at hs
    · cases hs
    next s1 h1 =>
    obtain ⟨i1, t1⟩ := putActivation_inv hg hid hmid h1
    obtain ⟨i2, t2⟩ := interactions_inv hv hg hid _ i1 hs
    refine ⟨i2, ?_⟩
    rw [t2, t1]
    exact ht
  · next q hpart =>
    cases hs
    set c0 : Contact K := ⟨e.id, q, s.last (wrap sim.n e.id) (wrap sim.n q), e.time⟩ with hc0
    have hco : contactOf sim.n s.last e = some c0 := by
      unfold contactOf
      rw [hpart]
      rfl
    rw [hco] at hrun
    have hrun : (running sim s).Perm (c0 :: r.filterMap (contactOf sim.n s.last)) := hrun
    have hmem0 : c0 ∈ running sim s := hrun.mem_iff.2 List.mem_cons_self
    have hf0 := h.runFormed hmem0
    have hqi : q ∈ sim.ids := hf0.tgt
    have honce := perm_pairs hrun h.once
    rw [List.pairwise_cons] at honce
    have hlast := filterMap_last hv r s.last 0 e.id q hid hqi fun c hc => by
      have hc' : c ∈ running sim s := hrun.mem_iff.2 (List.mem_cons_of_mem _ hc)
      exact ⟨(h.runFormed hc').src, (h.runFormed hc').tgt, fun e => honce.1 c hc ⟨e.1.symm, e.2.symm⟩⟩
    have bi := hv.bounds hid
    have bq := hv.bounds hqi
    have hrn : running sim (finish sim e.id q { s with t := e.time, queue := r }) =
        r.filterMap (contactOf sim.n s.last) := hlast
    refine ⟨⟨h.time.trans ht, hr, ?_, ?_, h.apart, ?_, ?_, ?_⟩, ht⟩
    · rw [hrn]
      show s.log.Perm ((s.events ++ [c0]) ++ _)
      rw [List.append_assoc]
      exact h.log.trans (List.Perm.append_left _ hrun)
    · intro c hc
      exact ⟨(h.formed c hc).1, (h.formed c hc).2.trans ht⟩
    · intro c hc
      rcases List.mem_append.1 hc with hc | hc
      · exact (h.ended c hc).trans ht
      · rw [List.mem_singleton] at hc
        subst hc
        exact le_rfl
    · intro a b
      rw [hrn]
      show setAt s.A (wrap sim.n e.id) (wrap sim.n q) false a b = true ↔ _
      unfold setAt
      rw [wrap_nonneg bi.1, wrap_nonneg bq.1]
      split
      · next hab =>
        simp only [Bool.false_eq_true, false_iff, not_exists, not_and]
        intro c hc e1 e2
        exact honce.1 c hc ⟨by rw [hc0]; simp only; omega, by rw [hc0]; simp only; omega⟩
      · next hab =>
        rw [h.adj]
        constructor
        · rintro ⟨c, hc, e1, e2⟩
          rcases List.mem_cons.1 (hrun.mem_iff.1 hc) with rfl | hc
          · exfalso
            simp only [hc0] at e1 e2
            omega
          · exact ⟨c, hc, e1, e2⟩
        · rintro ⟨c, hc, e⟩
          exact ⟨c, hrun.mem_iff.2 (List.mem_cons_of_mem _ hc), e⟩
    · rw [hrn]
      exact honce.2

theorem fresh_inv (sim : Sim K) : Inv sim (fresh sim) :=
  ⟨le_rfl, by simp [fresh], by simp [fresh, running], by simp [fresh], by simp [fresh], by simp [fresh],
    by simp [fresh, running], by simp [fresh, running]⟩

theorem initEvents_inv {sim : Sim K} {d : Draws K} (hg : Good sim d) :
    ∀ (l : List Int) {s s' : St K}, (∀ i ∈ l, i ∈ sim.ids) → Inv sim s → initEvents d l s = .ok s' →
      Inv sim s' ∧ s'.t = s.t
  | [], s, s', _, h, hs => by
    cases hs
    exact ⟨h, rfl⟩
  | i :: l, s, s', hl, h, hs => by
    unfold initEvents at hs
    split at hs
    · cases hs
    · next s1 h1 =>
      obtain ⟨a, b⟩ := putActivation_inv hg (hl i (by simp)) h h1
      obtain ⟨a', b'⟩ := initEvents_inv hg l (fun j hj => hl j (by simp [hj])) a hs
      exact ⟨a', b'.trans b⟩

theorem passes_inv {sim : Sim K} {d : Draws K} (hv : Valid sim) (hg : Good sim d) :
    ∀ (k : Nat) {s s' : St K}, Inv sim s → passes sim d k s = .ok s' → Inv sim s'
  | 0, s, s', h, hs => by
    cases hs
    exact h
  | k + 1, s, s', h, hs => by
    unfold passes at hs
    split at hs
    · cases hs
    · next s1 h1 => exact passes_inv hv hg k (step_inv hv hg h h1).1 hs

theorem run_inv {sim : Sim K} {d : Draws K} (hv : Valid sim) (hg : Good sim d) {k : Nat} {s : St K}
    (hs : run sim d k (fresh sim) = .ok s) : Inv sim s := by
  unfold run at hs
  split at hs
  · cases hs
  · next s1 h1 =>
    exact passes_inv hv hg k (initEvents_inv hg sim.ids (fun _ h => h) (fresh_inv sim) h1).1 hs

end Verif.Synth
