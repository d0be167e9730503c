import Verif.EndToEnd.Model
import Verif.EndToEnd.Spec
import Verif.EndToEnd.Driver
import Verif.Trans.Evolution
import Verif.Flow.Props
import Verif.Static.Multi

/-!
# C81: lemmas
-/

set_option linter.dupNamespace false
set_option linter.unusedSectionVars false

namespace Verif.EndToEnd

open Verif.FlowStability Verif.TempNet Verif.Trans Verif.Louvain Verif.Flow

variable {L : Type} [LinearOrder L]

/-! ## Covariances of equal matrices -/

theorem eqOn_covAt {n : Nat} {p : Nat → ℝ} {A B : Mat ℝ} (h : EqOn n A B) : EqOn n (covAt n p A) (covAt n p B) := by
  intro i hi j hj
  unfold covAt
  congr 1
  apply Finset.sum_congr rfl
  intro k hk
  rw [Finset.mem_range] at hk
  have : after n p A k = after n p B k := by
    unfold after
    apply Finset.sum_congr rfl
    intro a ha
    rw [h a (Finset.mem_range.1 ha) k hk]
  rw [this, h i hi k hk, h j hj k hk]

theorem eqOn_meanCov {n : Nat} {p : Nat → ℝ} {l m : List (ℝ × Mat ℝ)}
    (h : List.Forall₂ (fun a b => a.1 = b.1 ∧ EqOn n a.2 b.2) l m) : EqOn n (meanCov n p l) (meanCov n p m) := by
  intro i hi j hj
  unfold meanCov
  have h1 : (l.map (·.1)) = m.map (·.1) := by
    induction h with
    | nil => rfl
    | cons h _ ih => simp only [List.map_cons, ih, h.1]
  have h2 : (l.map fun e => e.1 * covAt n p e.2 i j) = m.map fun e => e.1 * covAt n p e.2 i j := by
    clear h1
    induction h with
    | nil => rfl
    | cons h _ ih => simp only [List.map_cons, ih, h.1, eqOn_covAt h.2 i hi j hj]
  rw [h1, h2]

theorem forall₂_map_range {α : Type} {R : α → α → Prop} {m : Nat} {f g : Nat → α} (h : ∀ k < m, R (f k) (g k)) :
    List.Forall₂ R ((List.range m).map f) ((List.range m).map g) := by
  rw [List.forall₂_map_left_iff, List.forall₂_map_right_iff]
  rw [List.forall₂_same]
  intro k hk
  exact h k (List.mem_range.1 hk)

theorem eqOn_flowSteps {n : Nat} {p : Nat → ℝ} {reverse : Bool} {Ms Ms' : List (Mat ℝ)} {ts : List ℝ} {m : Nat}
    (h : List.Forall₂ (EqOn n) Ms Ms') :
    EqOn n (meanCov n p (flowSteps n reverse Ms ts m)) (meanCov n p (flowSteps n reverse Ms' ts m)) := by
  apply eqOn_meanCov
  have hl := h.length_eq
  unfold flowSteps
  split
  · apply forall₂_map_range
    intro k _
    refine ⟨by rw [hl], prod_congr (List.forall₂_take _ (List.forall₂_reverse_iff.2 h))⟩
  · apply forall₂_map_range
    intro k _
    exact ⟨rfl, prod_congr (List.forall₂_take _ h)⟩

/-! ## Contacts of labels and of nodes -/

theorem labels_get (evs : List (Event L ℝ)) {l : L} (h : l ∈ allLabels evs) (i : Nat) :
    (allLabels evs)[i]? = some l ↔ (allLabels evs).idxOf l = i := by
  constructor
  · intro hi
    obtain ⟨hlt, rfl⟩ := List.getElem?_eq_some_iff.1 hi
    exact List.Nodup.idxOf_getElem (uniqueSorted_nodup _) i hlt
  · rintro rfl
    have := List.idxOf_lt_length_iff.2 h
    rw [List.getElem?_eq_getElem this, List.getElem_idxOf this]

theorem active_iff (evs : List (Event L ℝ)) (u : ℝ) (i j : Nat) :
    Active (ofEvents evs).events u i j ↔ InContact evs (allLabels evs) u i j := by
  unfold Active InContact Event.Pair
  constructor
  · rintro ⟨e, he, hp, h1, h2⟩
    obtain ⟨f, hf, rfl⟩ := (mem_events evs e).1 he
    refine ⟨f, hf, h1, h2, ?_⟩
    rw [labels_get evs ((mem_allLabels evs _).2 ⟨f, hf, .inl rfl⟩), labels_get evs ((mem_allLabels evs _).2 ⟨f, hf, .inl rfl⟩),
      labels_get evs ((mem_allLabels evs _).2 ⟨f, hf, .inr rfl⟩), labels_get evs ((mem_allLabels evs _).2 ⟨f, hf, .inr rfl⟩)]
    exact hp
  · rintro ⟨f, hf, h1, h2, h3⟩
    rw [labels_get evs ((mem_allLabels evs _).2 ⟨f, hf, .inl rfl⟩), labels_get evs ((mem_allLabels evs _).2 ⟨f, hf, .inl rfl⟩),
      labels_get evs ((mem_allLabels evs _).2 ⟨f, hf, .inr rfl⟩), labels_get evs ((mem_allLabels evs _).2 ⟨f, hf, .inr rfl⟩)] at h3
    exact ⟨relabelled (allLabels evs) f, (mem_events evs _).2 ⟨f, hf, rfl⟩, h3, h1, h2⟩

theorem nodesOf (evs : List (Event L ℝ)) : NodesOf evs (allLabels evs) := ⟨uniqueSorted_lt _, mem_allLabels evs⟩

theorem timesOf_spec (evs : List (Event L ℝ)) : TimesOf evs (timesOf (ofEvents evs).events) := by
  refine ⟨(C32_time_grid _).1, fun t => ?_⟩
  rw [(C32_time_grid _).2]
  constructor
  · rintro ⟨e, he, h⟩
    obtain ⟨f, hf, rfl⟩ := (mem_events evs e).1 he
    exact ⟨f, hf, h⟩
  · rintro ⟨f, hf, h⟩
    exact ⟨_, (mem_events evs _).2 ⟨f, hf, rfl⟩, h⟩

theorem strict_unique {α : Type} [LinearOrder α] {l m : List α} (hl : l.Pairwise (· < ·)) (hm : m.Pairwise (· < ·))
    (h : ∀ a, a ∈ l ↔ a ∈ m) : l = m := by
  have hp : l.Perm m := (List.perm_ext_iff_of_nodup (hl.imp fun h => ne_of_lt h) (hm.imp fun h => ne_of_lt h)).2 h
  exact hp.eq_of_pairwise (fun a b _ _ h1 h2 => absurd (h1.trans h2) (lt_irrefl _)) hl hm

theorem nodes_unique {evs : List (Event L ℝ)} {nodes : List L} (h : NodesOf evs nodes) : nodes = allLabels evs :=
  strict_unique h.1 (uniqueSorted_lt _) fun l => by rw [h.2, mem_allLabels]

theorem times_unique {evs : List (Event L ℝ)} {times : List ℝ} (h : TimesOf evs times) :
    times = timesOf (ofEvents evs).events :=
  strict_unique h.1 (C32_time_grid _).1 fun t => by rw [h.2, (timesOf_spec evs).2]

/-! ## The matrices of the network -/

theorem events_ne {evs : List (Event L ℝ)} (h : evs ≠ []) : (ofEvents evs).events ≠ [] := by
  obtain ⟨e, he⟩ := List.exists_mem_of_ne_nil _ h
  exact List.ne_nil_of_mem ((mem_events evs _).2 ⟨e, he, rfl⟩)

theorem nodes_pos {evs : List (Event L ℝ)} (h : evs ≠ []) : 0 < (allLabels evs).length := by
  obtain ⟨e, he⟩ := List.exists_mem_of_ne_nil _ h
  exact List.length_pos_of_mem ((mem_allLabels evs _).2 ⟨e, he, .inl rfl⟩)

theorem times_two {evs : List (Event L ℝ)} (h : GoodContacts evs) : 2 ≤ (timesOf (ofEvents evs).events).length := by
  obtain ⟨e, he⟩ := List.exists_mem_of_ne_nil _ h.nonempty
  have h1 := ((timesOf_spec evs).2 e.start).2 ⟨e, he, .inl rfl⟩
  have h2 := ((timesOf_spec evs).2 e.stop).2 ⟨e, he, .inr rfl⟩
  have h3 := h.lasting e he
  obtain ⟨i, hi, hi'⟩ := List.getElem_of_mem h1
  obtain ⟨j, hj, hj'⟩ := List.getElem_of_mem h2
  by_contra hc
  have : i = j := by omega
  subst this
  rw [hi'] at hj'
  exact absurd hj' (ne_of_lt h3)

/-- Without a window there is a matrix for every interval between times, and it is the
transition of the walk. -/
theorem mats_spec {evs : List (Event L ℝ)} (h : GoodContacts evs) (sf : Nat → Bool) :
    ∃ Lp, computeLaplacians (ofEvents evs).numNodes (ofEvents evs).events sf none none = .ok Lp ∧
      ∀ q : ℝ, 0 < q →
        (∀ M ∈ interMats (allLabels evs).length (expm (allLabels evs).length) (timesOf (ofEvents evs).events) Lp (1 / q) false,
          Stoch (allLabels evs).length M) ∧
        List.Forall₂ (EqOn (allLabels evs).length)
          (interMats (allLabels evs).length (expm (allLabels evs).length) (timesOf (ofEvents evs).events) Lp (1 / q) false)
          ((List.range ((timesOf (ofEvents evs).events).length - 1)).map
            (walkStep evs (allLabels evs) (timesOf (ofEvents evs).events) q)) := by
  have hp := C33_constructor_tables evs h.lasting h.different h.separate
  have hne := events_ne h.nonempty
  have h2 := times_two h
  rw [numNodes_eq] at hp ⊢
  obtain ⟨Lp, hL, r1, r2, -, -⟩ := C33_active_contacts_partial hp hne sf none none
  obtain ⟨L2, hL2, hlt, hi⟩ := C59_inter_event hp hne sf none none
  obtain ⟨L3, hL3, hst⟩ := C34_transition_stochastic hp.inRange hp.noLoops hne sf none none
  rw [hL] at hL2 hL3
  cases hL2
  cases hL3
  have r1' : Lp.kStart = 0 := r1
  have r2' : Lp.kStop = (timesOf (ofEvents evs).events).length - 1 := r2
  refine ⟨Lp, hL, fun q hq => ⟨(hst (1 / q) false (by positivity)).2, ?_⟩⟩
  obtain ⟨hlen, hval⟩ := hi (1 / q) false (by omega)
  rw [List.forall₂_iff_get]
  refine ⟨by rw [hlen, List.length_map, List.length_range]; omega, ?_⟩
  intro i hi1 hi2
  rw [List.length_map, List.length_range] at hi2
  have hv := hval i hi1 (by omega) ((timesOf (ofEvents evs).events)[i]'(by omega))
    (by simp only [r1', Nat.zero_add]; exact le_rfl)
    (by
      simp only [r1', Nat.zero_add]
      exact List.pairwise_iff_getElem.1 (C32_time_grid (ofEvents evs).events).1 i (i + 1) (by omega) (by omega) (by omega))
  simp only [List.get_eq_getElem, List.getElem_map, List.getElem_range]
  have hc : walkStep evs (allLabels evs) (timesOf (ofEvents evs).events) q i =
      expm (allLabels evs).length fun a b => -((if (false : Bool) then 1 else
        (timesOf (ofEvents evs).events)[Lp.kStart + i + 1]'(by omega) - (timesOf (ofEvents evs).events)[Lp.kStart + i]'(by omega)) * (1 / q)) *
        walkLaplacian (allLabels evs).length (Active (ofEvents evs).events ((timesOf (ofEvents evs).events)[i]'(by omega))) a b := by
    unfold walkStep
    have e1 : (timesOf (ofEvents evs).events).getD (i + 1) 0 = (timesOf (ofEvents evs).events)[i + 1]'(by omega) :=
      getD_getElem _ _ _
    have e2 : (timesOf (ofEvents evs).events).getD i 0 = (timesOf (ofEvents evs).events)[i]'(by omega) :=
      getD_getElem _ _ _
    have e3 : InContact evs (allLabels evs) ((timesOf (ofEvents evs).events)[i]'(by omega)) =
        Active (ofEvents evs).events ((timesOf (ofEvents evs).events)[i]'(by omega)) := by
      funext a b
      exact propext (active_iff evs _ a b).symm
    rw [e1, e2, e3]
    simp only [r1', Nat.zero_add, Bool.false_eq_true, if_false]
  rw [hc]
  exact hv

end Verif.EndToEnd
