import Verif.Listing.Lemmas
import Verif.Trans.Model
import Mathlib.Tactic.NormNum

/-!
# C125: results do not depend on how the contacts are listed

Listing the contacts in another order, exchanging the two nodes of a contact or repeating a
contact gives the same node labels, event times, Laplacians, transition matrices and
exceptions.  Nothing is assumed about the contacts: they may overlap, join a node to itself,
or end before they start.
-/

set_option linter.dupNamespace false
set_option linter.unusedSectionVars false

namespace Verif.Listing

open Verif.TempNet Verif.Trans

variable {K : Type} [Field K] [LinearOrder K] [IsStrictOrderedRing K]
variable {L : Type} [LinearOrder L]

theorem labels_same {evs evs' : List (Event L K)} (h : SameContacts evs evs') :
    allLabels evs = allLabels evs' := by
  apply uniqueSorted_eq
  intro x
  have one : ∀ {l m : List (Event L K)}, (∀ e ∈ l, ∃ f ∈ m, Like e f) →
      x ∈ l.map Event.src ++ l.map Event.tgt → x ∈ m.map Event.src ++ m.map Event.tgt := by
    intro l m hlm hx
    rw [List.mem_append, List.mem_map, List.mem_map] at hx ⊢
    rcases hx with ⟨e, he, rfl⟩ | ⟨e, he, rfl⟩ <;> obtain ⟨f, hf, hl | hl, _⟩ := hlm e he
    · exact .inl ⟨f, hf, hl.1.symm⟩
    · exact .inr ⟨f, hf, hl.1.symm⟩
    · exact .inr ⟨f, hf, hl.2.symm⟩
    · exact .inl ⟨f, hf, hl.2.symm⟩
  exact ⟨one h.1, one h.2⟩

theorem relabel_like (labels : List L) {e f : Event L K} (h : Like e f) :
    Like (relabelled labels e) (relabelled labels f) := by
  obtain ⟨h1 | h1, h2, h3⟩ := h
  · exact ⟨.inl ⟨by simp [relabelled, h1.1], by simp [relabelled, h1.2]⟩, h2, h3⟩
  · exact ⟨.inr ⟨by simp [relabelled, h1.1], by simp [relabelled, h1.2]⟩, h2, h3⟩

theorem table_same {evs evs' : List (Event L K)} (h : SameContacts evs evs') :
    SameContacts (ofEvents evs).events (ofEvents evs').events := by
  constructor
  · intro e he
    obtain ⟨f, hf, rfl⟩ := (mem_events evs e).1 he
    obtain ⟨g, hg, hl⟩ := h.1 f hf
    exact ⟨_, (mem_events evs' _).2 ⟨g, hg, rfl⟩, labels_same h ▸ relabel_like _ hl⟩
  · intro e he
    obtain ⟨f, hf, rfl⟩ := (mem_events evs' e).1 he
    obtain ⟨g, hg, hl⟩ := h.2 f hf
    exact ⟨_, (mem_events evs _).2 ⟨g, hg, rfl⟩, labels_same h ▸ relabel_like _ hl⟩

theorem table_sorted (evs : List (Event L K)) : (ofEvents evs).events.Pairwise Event.le := by
  haveI : Std.Total (Event.le (L := Nat) (K := K)) := ⟨le_total'⟩
  haveI : IsTrans (Event Nat K) Event.le := ⟨le_trans'⟩
  exact List.pairwise_insertionSort _ _

theorem table_range (evs : List (Event L K)) :
    InRange (ofEvents evs).numNodes (ofEvents evs).events := by
  intro e he
  obtain ⟨f, hf, rfl⟩ := (mem_events evs e).1 he
  rw [numNodes_eq]
  exact idx_lt evs f hf

/-- **C125** (nodes and times).  Two listings of the same contacts give the same node labels in
the same order, the same number of nodes and the same event times. -/
theorem C125_network {evs evs' : List (Event L K)} (h : SameContacts evs evs') :
    (ofEvents evs).labels = (ofEvents evs').labels ∧
    (ofEvents evs).numNodes = (ofEvents evs').numNodes ∧
    timesOf (ofEvents evs).events = timesOf (ofEvents evs').events :=
  ⟨labels_same h, by rw [numNodes_eq, numNodes_eq, labels_same h], times_same (table_same h)⟩

/-- **C125** (Laplacians).  The Laplacians, adjacency matrices, windows and exceptions of every
window are the same. -/
theorem C125_laplacians {evs evs' : List (Event L K)} (h : SameContacts evs evs')
    (sf sf' : Nat → Bool) (hf : Steady (ofEvents evs).events sf sf') (tStart tStop : Option K) :
    computeLaplacians (ofEvents evs).numNodes (ofEvents evs).events sf tStart tStop =
    computeLaplacians (ofEvents evs').numNodes (ofEvents evs').events sf' tStart tStop := by
  rw [← (C125_network h).2.1]
  exact laplacians_same (table_same h) (table_range evs) (table_sorted evs) (table_sorted evs') hf
    tStart tStop

/-- The environment of a network given by its contacts. -/
def netEnv (E : Mat K → Mat K) (sf : Nat → Bool) (evs : List (Event L K)) : Env K :=
  ⟨(ofEvents evs).numNodes, (ofEvents evs).events, sf, E⟩

/-- **C125** (matrices).  Every sequence of calls computing Laplacians, inter-event transition
matrices and their products leaves the same matrices, or raises the same exception. -/
theorem C125_matrices {evs evs' : List (Event L K)} (h : SameContacts evs evs')
    (E : Mat K → Mat K) (sf sf' : Nat → Bool) (hf : Steady (ofEvents evs).events sf sf')
    (ops : List (Op K)) :
    run (netEnv E sf evs) ops = run (netEnv E sf' evs') ops := by
  have hn : (netEnv E sf evs).n = (netEnv E sf' evs').n := (C125_network h).2.1
  have ht : timesOf (netEnv E sf evs).events = timesOf (netEnv E sf' evs').events :=
    (C125_network h).2.2
  have hc : ∀ a b, computeLaplacians (netEnv E sf evs).n (netEnv E sf evs).events
      (netEnv E sf evs).startFirst a b = computeLaplacians (netEnv E sf' evs').n
      (netEnv E sf' evs').events (netEnv E sf' evs').startFirst a b :=
    fun a b => C125_laplacians h sf sf' hf a b
  have hE : (netEnv E sf evs).E = (netEnv E sf' evs').E := rfl
  have hstep : State.step (netEnv E sf evs) = State.step (netEnv E sf' evs') := by
    funext s op
    cases op with
    | laplacians a b => simp only [State.step, State.laplacians, hc]
    | inter l f a b =>
      have he : s.ensureLaps (netEnv E sf evs) a b = s.ensureLaps (netEnv E sf' evs') a b := by
        unfold State.ensureLaps
        rw [hc]
      show s.inter _ l f a b = s.inter _ l f a b
      unfold State.inter
      rw [he, hn, ht]
      rfl
    | trans l r t v => simp only [State.step, State.trans, hn]
  unfold run
  rw [hstep]

/-- **C125** (instantaneous contacts).  The same for networks of contacts without duration,
whatever the order of rows. -/
theorem C125_instantaneous {evs evs' : List (L × L × K)} (h : SameInstants evs evs')
    (sf sf' : Nat → Bool) (tStart tStop : Option K) :
    (ofEvents (instEvents evs)).labels = (ofEvents (instEvents evs')).labels ∧
    computeInstLaplacians (ofEvents (instEvents evs)).numNodes (ofEvents (instEvents evs)).events sf
      tStart tStop =
    computeInstLaplacians (ofEvents (instEvents evs')).numNodes (ofEvents (instEvents evs')).events
      sf' tStart tStop := by
  have hu : uniqueSorted (evs.map fun e => e.2.2) = uniqueSorted (evs'.map fun e => e.2.2) := by
    apply uniqueSorted_eq
    intro x
    rw [List.mem_map, List.mem_map]
    constructor
    · rintro ⟨e, he, rfl⟩
      rcases h.1 e he with h1 | h1
      · exact ⟨_, h1, rfl⟩
      · exact ⟨_, h1, rfl⟩
    · rintro ⟨e, he, rfl⟩
      rcases h.2 e he with h1 | h1
      · exact ⟨_, h1, rfl⟩
      · exact ⟨_, h1, rfl⟩
  have hs : SameContacts (instEvents evs) (instEvents evs') := by
    unfold instEvents
    dsimp only
    rw [hu]
    constructor
    · intro e he
      rw [List.mem_map] at he
      obtain ⟨x, hx, rfl⟩ := he
      rcases h.1 x hx with h1 | h1
      · exact ⟨_, List.mem_map_of_mem h1, .inl ⟨rfl, rfl⟩, rfl, rfl⟩
      · exact ⟨_, List.mem_map_of_mem h1, .inr ⟨rfl, rfl⟩, rfl, rfl⟩
    · intro e he
      rw [List.mem_map] at he
      obtain ⟨x, hx, rfl⟩ := he
      rcases h.2 x hx with h1 | h1
      · exact ⟨_, List.mem_map_of_mem h1, .inl ⟨rfl, rfl⟩, rfl, rfl⟩
      · exact ⟨_, List.mem_map_of_mem h1, .inr ⟨rfl, rfl⟩, rfl, rfl⟩
  refine ⟨labels_same hs, ?_⟩
  rw [← (C125_network hs).2.1]
  exact inst_laplacians_same (table_same hs) (table_range _) sf sf' tStart tStop

theorem Reordered.same {evs evs' : List (Event L K)} (h : Reordered evs evs') :
    SameContacts evs evs' := by
  obtain ⟨l, h1, h2⟩ := h
  constructor
  · intro e he
    obtain ⟨i, hi, rfl⟩ := List.getElem_of_mem he
    have hi' : i < l.length := h1.length_eq ▸ hi
    exact ⟨l[i], h2.mem_iff.1 (List.getElem_mem _), (List.forall₂_iff_get.1 h1).2 i hi hi'⟩
  · intro f hf
    obtain ⟨i, hi, rfl⟩ := List.getElem_of_mem (h2.mem_iff.2 hf)
    have hi' : i < evs.length := h1.length_eq.symm ▸ hi
    have := (List.forall₂_iff_get.1 h1).2 i hi' hi
    refine ⟨evs[i], List.getElem_mem _, ?_, this.2.1.symm, this.2.2.symm⟩
    rcases this.1 with x | x
    · exact .inl ⟨x.1.symm, x.2.symm⟩
    · exact .inr ⟨x.2.symm, x.1.symm⟩

/-- Time in the window of the contacts of a pair, both directions counted. -/
theorem static_sum (evs : List (Event Nat K)) (a b : K) (i j : Nat) :
    staticAdjacency evs a b i j =
      (evs.map fun e => if e.start < b ∧ a < e.stop then
        ((if e.src = i ∧ e.tgt = j then min e.stop b - max e.start a else 0) +
          if e.src = j ∧ e.tgt = i then min e.stop b - max e.start a else 0) else 0).sum := by
  unfold staticAdjacency staticCoo
  induction evs with
  | nil => simp
  | cons e l ih =>
    rw [List.map_cons, List.sum_cons, ← ih, List.filter_cons]
    by_cases h : e.start < b ∧ a < e.stop
    · rw [if_pos h, if_pos (by simpa using h)]
      simp only [List.filter_cons, decide_eq_true_eq]
      split_ifs <;> (try simp only [List.map_cons, List.sum_cons]) <;> ring
    · simp only [h, decide_false, Bool.false_eq_true, if_false, zero_add]

/-- **C125** (static network).  The aggregated adjacency matrix of every window is the same when
the contacts are listed in another order or with exchanged roles.  It adds durations, so a
repeated contact counts again. -/
theorem C125_static {evs evs' : List (Event L K)} (h : Reordered evs evs') (a b : K) :
    staticAdjacency (ofEvents evs).events a b = staticAdjacency (ofEvents evs').events a b := by
  have hlab := labels_same h.same
  obtain ⟨l, h1, h2⟩ := h
  funext i j
  rw [static_sum, static_sum, ((events_perm evs).map _).sum_eq, ((events_perm evs').map _).sum_eq,
    ← hlab, ← ((h2.map (relabelled (allLabels evs))).map _).sum_eq, List.map_map, List.map_map]
  congr 1
  clear h2 hlab
  generalize allLabels evs = labels
  induction h1 with
  | nil => rfl
  | cons hl _ ih =>
    rw [List.map_cons, List.map_cons, ih]
    congr 1
    obtain ⟨x | x, y, z⟩ := hl
    · unfold relabelled Function.comp
      dsimp only
      rw [x.1, x.2, y, z]
    · unfold relabelled Function.comp
      dsimp only
      rw [x.1, x.2, y, z]
      refine if_congr Iff.rfl ?_ rfl
      rw [add_comm]
      exact congrArg₂ _ (if_congr and_comm rfl rfl) (if_congr and_comm rfl rfl)

/-! ## The hypotheses are met -/

/-- Overlapping contacts, a contact of a node with itself and one that ends when it starts. -/
def firstList : List (Event Nat ℚ) := [⟨3, 5, 0, 2⟩, ⟨5, 3, 1, 4⟩, ⟨5, 7, 0, 2⟩, ⟨7, 7, 1, 3⟩, ⟨3, 7, 2, 2⟩]

/-- The same in another order, with exchanged roles and a repetition. -/
def secondList : List (Event Nat ℚ) :=
  [⟨7, 5, 0, 2⟩, ⟨7, 3, 2, 2⟩, ⟨3, 5, 1, 4⟩, ⟨7, 7, 1, 3⟩, ⟨5, 3, 0, 2⟩, ⟨5, 7, 0, 2⟩]

theorem lists_same : SameContacts firstList secondList := by
  unfold SameContacts Like
  decide +kernel

/-- The two tables are not equal. -/
example : (ofEvents firstList).events ≠ (ofEvents secondList).events := by decide +kernel

example (c : Bool) (ops : List (Op ℚ)) (E : Mat ℚ → Mat ℚ) :
    run (netEnv E (fun _ => c) firstList) ops = run (netEnv E (fun _ => c) secondList) ops :=
  C125_matrices lists_same E _ _ (.inr ⟨c, fun _ => ⟨rfl, rfl⟩⟩) ops

/-- The Laplacians exist and are not trivial. -/
example : ∃ laps, computeLaplacians 3 (ofEvents firstList).events (fun _ => true) none none =
    .ok laps ∧ laps.adjacencies.length = 4 := ⟨_, rfl, by decide +kernel⟩

example : SameInstants [((1 : Nat), (2 : Nat), (0 : ℚ)), (2, 4, 1)] [(4, 2, 1), (1, 2, 0), (2, 1, 0)] := by
  unfold SameInstants
  decide +kernel

example : Reordered [(⟨1, 2, 0, 1⟩ : Event Nat ℚ), ⟨2, 4, 0, 3⟩] [⟨4, 2, 0, 3⟩, ⟨1, 2, 0, 1⟩] := by
  refine ⟨[⟨1, 2, 0, 1⟩, ⟨4, 2, 0, 3⟩], ?_, List.Perm.swap _ _ _⟩
  refine .cons ⟨.inl ⟨rfl, rfl⟩, rfl, rfl⟩ (.cons ⟨.inr ⟨rfl, rfl⟩, rfl, rfl⟩ .nil)

end Verif.Listing
