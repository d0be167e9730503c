import Verif.Merge.CliqueLemmas
import Mathlib.Algebra.Field.Rat
import Mathlib.Data.Rat.Defs
import Mathlib.Algebra.Order.Ring.Rat
import Mathlib.Tactic.NormNum

/-!
# Merging of overlapping events: property C35
-/

set_option linter.dupNamespace false
set_option linter.unusedSectionVars false
set_option linter.unusedSimpArgs false

namespace Verif.Merge

open Verif.TempNet

variable {K : Type} [Field K] [LinearOrder K] [IsStrictOrderedRing K]

/-- **C35**, termination: whatever the table, the merging loop stops after at most one pass
more than there are events. -/
theorem C35_terminates (n : Nat) (evs : List (Event Nat K)) :
    ∃ r, ∀ fuel, evs.length < fuel → mergeLoop n fuel evs = some r := by
  obtain ⟨r, hr⟩ := mergeLoop_total n (evs.length + 1) evs (by omega)
  exact ⟨r, fun fuel h => mergeLoop_fuel n _ evs r hr fuel h⟩

/-- **C35**, no overlaps are left: after merging, two contacts of the same pair of nodes
share no time. -/
theorem C35_no_overlaps_left {n : Nat} {evs : List (Event Nat K)} (hr : InRange n evs) (hl : Lasting evs)
    {fuel : Nat} {r : List (Event Nat K)} (h : mergeLoop n fuel evs = some r) : NoOverlaps r := by
  obtain ⟨⟨h1, h2⟩, h3⟩ := mergeLoop_some (fun x => InRange n x ∧ Lasting x)
    (fun x hx => ⟨passTable_inRange n hx.1, passTable_lasting n hx.2⟩) fuel evs r ⟨hr, hl⟩ h
  exact noOverlaps_of_chains h2 fun e he => (pass_none h3).2 _ (mem_visits h1 h2 he)

/-- **C35**, nothing is invented: a contact of the merged table was a contact of the table,
and every event of the merged table lasts, connects the nodes and starts at the time of an
event of the table. -/
theorem C35_nothing_invented {n : Nat} {evs : List (Event Nat K)} (hl : Lasting evs)
    {fuel : Nat} {r : List (Event Nat K)} (h : mergeLoop n fuel evs = some r) :
    (∀ t i j, Active r t i j → Active evs t i j) ∧ Lasting r ∧
      (r.map fun e => (e.src, e.tgt, e.start)).Sublist (evs.map fun e => (e.src, e.tgt, e.start)) := by
  obtain ⟨h1, _⟩ := mergeLoop_some (fun x => (∀ t i j, Active x t i j → Active evs t i j) ∧
      Lasting x ∧ (x.map head3).Sublist (evs.map head3))
    (fun x hx => ⟨fun t i j ha => hx.1 t i j (passTable_active n hx.2.1 ha), passTable_lasting n hx.2.1,
      (passTable_heads n x).trans hx.2.2⟩) fuel evs r ⟨fun _ _ _ ha => ha, hl, List.Sublist.refl _⟩ h
  exact h1

/-- **C35**, a table without overlaps is left as it is, in one pass. -/
theorem C35_identity_without_overlaps (n : Nat) {evs : List (Event Nat K)} (hl : Lasting evs)
    (ho : NoOverlaps evs) (fuel : Nat) : mergeLoop n (fuel + 1) evs = some evs := by
  have h := pass_of_noOverlaps n hl ho
  unfold mergeLoop
  rw [if_pos (passMerged_of_init h), passTable_of_init h]

/-- **C35** (part): the contacts of the merged table are exactly those of the table when
contacts of the same pair start at different times, do not contain each other and overlap
transitively.  Missing: the claim for all tables, which is false, see
`C35_containment_violated`, `C35_equal_starts_violated` and `C35_chain_violated`. -/
theorem C35_activity_preserved_partial {n : Nat} {evs : List (Event Nat K)} (hr : InRange n evs)
    (hl : Lasting evs) (hd : DistinctStarts evs) (hc : NoContainment evs) (ht : OverlapsTransitive evs)
    {fuel : Nat} {r : List (Event Nat K)} (h : mergeLoop n fuel evs = some r) (t : K) (i j : Nat) :
    Active r t i j ↔ Active evs t i j := by
  refine ⟨(C35_nothing_invented hl h).1 t i j, ?_⟩
  intro ha
  have hq : Clique evs := ⟨hl, hd, hc, ht⟩
  cases fuel with
  | zero => simp [mergeLoop] at h
  | succ fuel =>
    unfold mergeLoop at h
    split at h
    · cases h; exact pass_covers hr hq ha
    · cases fuel with
      | zero => simp [mergeLoop] at h
      | succ fuel =>
        rw [C35_identity_without_overlaps n (passTable_lasting n hl) (pass_noOverlaps hr hq)] at h
        cases h
        exact pass_covers hr hq ha

/-- Two contacts of the pair 0, 1 that overlap and one apart, and another pair. -/
def exEvents : List (Event Nat ℚ) := [⟨0, 1, 0, 4⟩, ⟨1, 2, 1, 2⟩, ⟨1, 0, 3, 6⟩, ⟨0, 1, 8, 9⟩]

theorem exEvents_result : mergeLoop 3 5 exEvents =
    some [⟨0, 1, 0, 6⟩, ⟨1, 2, 1, 2⟩, ⟨0, 1, 8, 9⟩] := by decide +kernel

example : InRange 3 exEvents ∧ Lasting exEvents ∧ DistinctStarts exEvents ∧ NoContainment exEvents ∧
    OverlapsTransitive exEvents ∧ ¬ NoOverlaps exEvents := by
  refine ⟨?_, ?_, ?_, ?_, ?_, ?_⟩
  · unfold InRange; decide +kernel
  · unfold Lasting; decide +kernel
  · unfold DistinctStarts Event.Pair; decide +kernel
  · unfold NoContainment Event.Pair; decide +kernel
  · unfold OverlapsTransitive Event.Pair exEvents; simp; norm_num
  · unfold NoOverlaps Event.Pair; decide +kernel

/-- An event after the first that lies inside it shortens the contact. -/
theorem C35_containment_violated : ∃ (evs r : List (Event Nat ℚ)) (t : ℚ), InRange 2 evs ∧
    NoSelfLoops evs ∧ Lasting evs ∧ DistinctStarts evs ∧ mergeLoop 2 (evs.length + 1) evs = some r ∧
    Active evs t 0 1 ∧ ¬ Active r t 0 1 := by
  refine ⟨[⟨0, 1, 0, 10⟩, ⟨0, 1, 1, 2⟩], [⟨0, 1, 0, 2⟩], 5, ?_⟩
  unfold InRange NoSelfLoops Lasting DistinctStarts Active Event.Pair
  decide +kernel

/-- Three contacts of one pair with the same start: all are deleted. -/
theorem C35_equal_starts_violated : ∃ (evs : List (Event Nat ℚ)), evs ≠ [] ∧ InRange 2 evs ∧
    NoSelfLoops evs ∧ Lasting evs ∧ NoContainment evs ∧ OverlapsTransitive evs ∧
    mergeLoop 2 (evs.length + 1) evs = some [] := by
  refine ⟨[⟨0, 1, 0, 2⟩, ⟨0, 1, 0, 3⟩, ⟨0, 1, 0, 4⟩], ?_⟩
  refine ⟨by decide +kernel, ?_, ?_, ?_, ?_, ?_, by decide +kernel⟩
  · unfold InRange; decide +kernel
  · unfold NoSelfLoops; decide +kernel
  · unfold Lasting; decide +kernel
  · unfold NoContainment Event.Pair; decide +kernel
  · unfold OverlapsTransitive Event.Pair; simp

/-- A chain of five contacts, each overlapping only the next: the end is lost. -/
theorem C35_chain_violated : ∃ (evs r : List (Event Nat ℚ)) (t : ℚ), InRange 2 evs ∧
    NoSelfLoops evs ∧ Lasting evs ∧ DistinctStarts evs ∧ NoContainment evs ∧
    mergeLoop 2 (evs.length + 1) evs = some r ∧ Active evs t 0 1 ∧ ¬ Active r t 0 1 := by
  refine ⟨[⟨0, 1, 0, 2⟩, ⟨0, 1, 1, 4⟩, ⟨0, 1, 3, 6⟩, ⟨0, 1, 5, 8⟩, ⟨0, 1, 7, 9⟩], [⟨0, 1, 0, 8⟩], 17 / 2, ?_⟩
  unfold InRange NoSelfLoops Lasting DistinctStarts NoContainment Active Event.Pair
  decide +kernel

/-- The merged table of a table sorted by starting time is one on which the Laplacians are
exact. -/
theorem proper_of_merged {n : Nat} {evs : List (Event Nat K)} (hr : InRange n evs) (hn : NoSelfLoops evs)
    (hl : Lasting evs) (hs : evs.Pairwise fun e f => e.start ≤ f.start) {fuel : Nat}
    {r : List (Event Nat K)} (h : mergeLoop n fuel evs = some r) : Proper n r := by
  obtain ⟨⟨h1, h2, h3, h4⟩, _⟩ := mergeLoop_some (fun x => InRange n x ∧ NoSelfLoops x ∧ Lasting x ∧
      (x.map head3).Sublist (evs.map head3))
    (fun x hx => ⟨passTable_inRange n hx.1, passTable_noLoops n hx.2.1, passTable_lasting n hx.2.2.1,
      (passTable_heads n x).trans hx.2.2.2⟩) fuel evs r ⟨hr, hn, hl, List.Sublist.refl _⟩ h
  refine ⟨h1, h2, h3, ?_⟩
  have ho := C35_no_overlaps_left hr hl h
  have hs' : (evs.map head3).Pairwise fun a b => a.2.2 ≤ b.2.2 := by
    rw [List.pairwise_map]; exact hs
  have hs2 := hs'.sublist h4
  rw [List.pairwise_map] at hs2
  unfold Separate
  refine List.Pairwise.imp_of_mem ?_ (hs2.and ho)
  intro e f he hf hef hp
  left
  rcases hef.2 hp with h' | h'
  · exact h'
  · have := h3 f hf
    exact absurd (lt_of_lt_of_le this h') (not_lt.2 hef.1)

/-- **C33** after merging: for every table sorted by starting time, of lasting events between
different nodes, the Laplacians computed after merging are those of the contacts active in
the merged table, whatever overlaps the table had. -/
theorem C33_merged {n : Nat} {evs : List (Event Nat K)} (hr : InRange n evs) (hn : NoSelfLoops evs)
    (hl : Lasting evs) (hs : evs.Pairwise fun e f => e.start ≤ f.start) {fuel : Nat}
    {r : List (Event Nat K)} (h : mergeLoop n fuel evs = some r) (hne : r ≠ []) (sf : Nat → Bool)
    (tStart tStop : Option K) :
    ∃ L, computeLaplacians n r sf tStart tStop = .ok L ∧
      Resolves (timesOf r) L.kStart 0 tStart ∧
      Resolves (timesOf r) L.kStop ((timesOf r).length - 1) tStop ∧
      L.laplacians.length = L.kStop - L.kStart ∧
      ∀ (i : Nat) (hi : i < L.laplacians.length) (hk : L.kStart + i + 1 < (timesOf r).length) (u : K),
        (timesOf r)[L.kStart + i] ≤ u → u < (timesOf r)[L.kStart + i + 1] →
        ∀ a b, L.laplacians[i] a b = walkLaplacian n (Active r u) a b :=
  C33_active_contacts_partial (proper_of_merged hr hn hl hs h) hne sf tStart tStop

example : InRange 3 exEvents ∧ NoSelfLoops exEvents ∧ Lasting exEvents ∧
    (exEvents.Pairwise fun e f => e.start ≤ f.start) ∧ ∃ r, mergeLoop 3 5 exEvents = some r ∧ r ≠ [] := by
  refine ⟨?_, ?_, ?_, by decide +kernel, _, exEvents_result, by simp⟩
  · unfold InRange; decide +kernel
  · unfold NoSelfLoops; decide +kernel
  · unfold Lasting; decide +kernel

end Verif.Merge
