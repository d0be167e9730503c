import Verif.Local.Lemmas
import Verif.Noise.Props
import Verif.Groups.Spec
import Verif.Causal.Props

/-!
# Probabilities depend only on what walkers can notice: property C148
-/

set_option linter.dupNamespace false
set_option linter.unusedSectionVars false

namespace Verif.Local

open Verif.TempNet Verif.Trans Verif.Flow Verif.EndToEnd Verif.Average Verif.Groups Verif.Noise Verif.Causal Finset

variable {L : Type} [LinearOrder L]

/-- **C148**.  If two tables have the same contacts wherever and whenever walkers from `x` can be,
the library computes the same probabilities for the ways from `x`, forward and backward in time.
The tables can have other contacts, other labels and other times everywhere else. -/
theorem C148_same_walks {evs evs' : List (Event L ℝ)} (h : GoodContacts evs) (h' : GoodContacts evs') {nodes nodes' : List L}
    (hn : NodesOf evs nodes) (hn' : NodesOf evs' nodes') (sf sf' : Nat → Bool) {scale : ℝ} (hs : 0 < scale) (reverse : Bool) {x : L}
    (hx : x ∈ nodes) (hx' : x ∈ nodes') (hsame : SameAlongWalks evs evs' reverse x) :
    ∃ T T', computedTransition sf evs scale reverse = some T ∧ computedTransition sf' evs' scale reverse = some T' ∧
      ∀ y, prob nodes T x y = prob nodes' T' x y := by
  obtain ⟨T, hT, e⟩ := computedTransition_spec h sf hs reverse
  obtain ⟨T', hT', e'⟩ := computedTransition_spec h' sf' hs reverse
  refine ⟨T, T', hT, hT', fun y => ?_⟩
  rw [← nodes_unique hn] at e
  rw [← nodes_unique hn'] at e'
  have hi := List.idxOf_lt_length_of_mem hx
  have hi' := List.idxOf_lt_length_of_mem hx'
  have gx : nodes[nodes.idxOf x] = x := List.getElem_idxOf hi
  have gx' : nodes'[nodes'.idxOf x] = x := List.getElem_idxOf hi'
  obtain ⟨ts, hts⟩ := exists_times (evs ++ evs')
  have hcc := TimesOf.covers hts
  have hc : Covers evs ts := ⟨hcc.1, fun e he => hcc.2 e (List.mem_append_left _ he)⟩
  have hc' : Covers evs' ts := ⟨hcc.1, fun e he => hcc.2 e (List.mem_append_right _ he)⟩
  have hW := walk_exists (rate := 1 / scale) (covers_grid hc nodes) reverse
  have hW' := walk_exists (rate := 1 / scale) (covers_grid hc' nodes') reverse
  have ht := timesOf_spec evs
  have ht' := timesOf_spec evs'
  have f := e.trans (walkOver_eq ht (times_inside h.nonempty ht hc).1 (times_inside h.nonempty ht hc).2 hW)
  have f' := e'.trans (walkOver_eq ht' (times_inside h'.nonempty ht' hc').1 (times_inside h'.nonempty ht' hc').2 hW')
  have hA := agree_congr (f _ hi) (f' _ hi') (walks_agree hn hn' hi hi' gx gx' hsame hc hc' hW hW')
  unfold prob
  by_cases hy : y ∈ nodes
  · rw [if_pos ⟨hx, hy⟩]
    have hj := List.idxOf_lt_length_of_mem hy
    have gy : nodes[nodes.idxOf y] = y := List.getElem_idxOf hj
    by_cases hy' : y ∈ nodes'
    · rw [if_pos ⟨hx', hy'⟩]
      have hj' := List.idxOf_lt_length_of_mem hy'
      have gy' : nodes'[nodes'.idxOf y] = y := List.getElem_idxOf hj'
      rw [hA.2 _ hj', sum_same_left (nodup_of hn) _ hj hj' (gy.trans gy'.symm)]
    · rw [if_neg (fun hh => hy' hh.2)]
      by_contra hne
      have := hA.1 _ hj hne
      rw [gy] at this
      exact hy' (visits_mem hn' hx' hsame this)
  · rw [if_neg (fun hh => hy hh.2)]
    by_cases hy' : y ∈ nodes'
    · rw [if_pos ⟨hx', hy'⟩]
      have hj' := List.idxOf_lt_length_of_mem hy'
      have gy' : nodes'[nodes'.idxOf y] = y := List.getElem_idxOf hj'
      rw [hA.2 _ hj', sum_same_none _ hj' (by rw [gy']; exact hy)]
    · rw [if_neg (fun hh => hy' hh.2)]

theorem visits_linked {evs : List (Event L ℝ)} {reverse : Bool} {x : L} {u : ℝ} {y : L} (h : Visits evs reverse x u y) : Linked evs x y := by
  induction h with
  | start => exact .refl _
  | wait _ _ ih => exact ih
  | jump _ h2 ih =>
    obtain ⟨e, he, -, -, ⟨rfl, rfl⟩ | ⟨rfl, rfl⟩⟩ := h2
    · exact ih.trans _ _ _ (.rel _ _ ⟨e, he, rfl, rfl⟩)
    · exact ih.trans _ _ _ (.symm _ _ (.rel _ _ ⟨e, he, rfl, rfl⟩))

/-- **C148**, other groups.  Contacts between labels that no chain of contacts links with `x` can be
added to a table without changing the probabilities of the ways from `x`. -/
theorem C148_other_groups {evs more : List (Event L ℝ)} (h : GoodContacts evs) (h' : GoodContacts (evs ++ more)) {nodes nodes' : List L}
    (hn : NodesOf evs nodes) (hn' : NodesOf (evs ++ more) nodes') (sf sf' : Nat → Bool) {scale : ℝ} (hs : 0 < scale) (reverse : Bool) {x : L}
    (hx : x ∈ nodes) (hm : ∀ e ∈ more, ¬ Linked evs x e.src ∧ ¬ Linked evs x e.tgt) :
    ∃ T T', computedTransition sf evs scale reverse = some T ∧ computedTransition sf' (evs ++ more) scale reverse = some T' ∧
      ∀ y, prob nodes T x y = prob nodes' T' x y := by
  refine C148_same_walks h h' hn hn' sf sf' hs reverse hx ?_ ?_
  · obtain ⟨e, he, hl⟩ := (hn.2 x).1 hx
    exact (hn'.2 x).2 ⟨e, List.mem_append_left _ he, hl⟩
  · intro u y hv z
    have hl := visits_linked hv
    constructor
    · rintro ⟨e, he, r⟩
      exact ⟨e, List.mem_append_left _ he, r⟩
    · rintro ⟨e, he, r1, r2, r3⟩
      rcases List.mem_append.1 he with he | he
      · exact ⟨e, he, r1, r2, r3⟩
      · exfalso
        rcases r3 with ⟨rfl, -⟩ | ⟨-, rfl⟩
        · exact (hm e he).1 hl
        · exact (hm e he).2 hl

/-- **C148**, order of time.  A contact of `a` and `b` that ends before walkers from `x` can be at
one of them can be added without changing the probabilities of the ways from `x`. -/
theorem C148_too_early {evs : List (Event L ℝ)} {e : Event L ℝ} (h : GoodContacts evs) (h' : GoodContacts (e :: evs)) {nodes nodes' : List L}
    (hn : NodesOf evs nodes) (hn' : NodesOf (e :: evs) nodes') (sf sf' : Nat → Bool) {scale : ℝ} (hs : 0 < scale) {x : L} (hx : x ∈ nodes)
    (hearly : ∀ u y, Visits evs false x u y → y = e.src ∨ y = e.tgt → e.stop ≤ u) :
    ∃ T T', computedTransition sf evs scale false = some T ∧ computedTransition sf' (e :: evs) scale false = some T' ∧
      ∀ y, prob nodes T x y = prob nodes' T' x y := by
  refine C148_same_walks h h' hn hn' sf sf' hs false hx ?_ ?_
  · obtain ⟨f, hf, hl⟩ := (hn.2 x).1 hx
    exact (hn'.2 x).2 ⟨f, List.mem_cons_of_mem _ hf, hl⟩
  · intro u y hv z
    constructor
    · rintro ⟨f, hf, r⟩
      exact ⟨f, List.mem_cons_of_mem _ hf, r⟩
    · rintro ⟨f, hf, r1, r2, r3⟩
      rcases List.mem_cons.1 hf with rfl | hf
      · exfalso
        refine absurd (hearly u y hv ?_) (not_le.2 r2)
        rcases r3 with ⟨rfl, -⟩ | ⟨-, rfl⟩
        · exact .inl rfl
        · exact .inr rfl
      · exact ⟨f, hf, r1, r2, r3⟩

/-! ## Example: an early contact of a label that is reached late -/

example : ∀ u y, Visits relay false 2 u y → y = (⟨1, 3, 0, 1⟩ : Event Nat ℝ).src ∨ y = (⟨1, 3, 0, 1⟩ : Event Nat ℝ).tgt →
    (⟨1, 3, 0, 1⟩ : Event Nat ℝ).stop ≤ u := by
  have key : ∀ u y, Visits relay false 2 u y → y = 2 ∨ (y = 1 ∧ 1 ≤ u) := by
    intro u y hv
    induction hv with
    | start => exact .inl rfl
    | wait _ h2 ih =>
      rcases ih with ih | ⟨ih, h3⟩
      · exact .inl ih
      · exact .inr ⟨ih, h3.trans (by simpa using h2)⟩
    | jump _ h2 ih =>
      obtain ⟨e, he, e1, e2, e3⟩ := h2
      simp only [relay, List.mem_cons, List.not_mem_nil, or_false] at he
      rcases he with rfl | rfl
      · simp only at e1 e2 e3
        rcases ih with ih | ⟨ih, h3⟩
        · omega
        · linarith
      · simp only at e1 e2 e3
        rcases ih with ih | ⟨ih, h3⟩
        · exact .inr ⟨by omega, e1⟩
        · exact .inl (by omega)
  intro u y hv hy
  rcases key u y hv with rfl | ⟨-, h⟩
  · simp at hy
  · exact h

example : GoodContacts (⟨1, 3, 0, 1⟩ :: relay) := by
  refine ⟨by simp, ?_, ?_, ?_⟩
  · intro e he
    simp only [relay, List.mem_cons, List.not_mem_nil, or_false] at he
    rcases he with rfl | rfl | rfl <;> norm_num
  · intro e he
    simp only [relay, List.mem_cons, List.not_mem_nil, or_false] at he
    rcases he with rfl | rfl | rfl <;> norm_num
  · simp [relay]

/-- Contacts of two other labels. -/
example : ∀ e ∈ [(⟨7, 8, 0, 3⟩ : Event Nat ℝ)], ¬ Linked relay 0 e.src ∧ ¬ Linked relay 0 e.tgt := by
  have key : ∀ a b : Nat, Linked relay a b → (a ≤ 2 ↔ b ≤ 2) := by
    intro a b h
    unfold Linked at h
    induction h with
    | rel a b h =>
      obtain ⟨e, he, rfl, rfl⟩ := h
      simp only [relay, List.mem_cons, List.not_mem_nil, or_false] at he
      rcases he with rfl | rfl <;> simp
    | refl => rfl
    | symm _ _ _ ih => exact ih.symm
    | trans _ _ _ _ _ i1 i2 => exact i1.trans i2
  intro e he
  simp only [List.mem_singleton] at he
  subst he
  exact ⟨fun h => by simpa using key _ _ h, fun h => by simpa using key _ _ h⟩

end Verif.Local
