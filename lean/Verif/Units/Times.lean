import Verif.Units.Spec
import Verif.TempNet.Lemmas

/-!
# Laplacians depend on the order of the times only
-/

set_option linter.unusedSectionVars false

namespace Verif.Units

open Verif.TempNet Verif.Trans

variable {K : Type} [Field K] [LinearOrder K] [IsStrictOrderedRing K]

theorem uniqueSorted_map {φ : K → K} (hφ : StrictMono φ) (l : List K) :
    uniqueSorted (l.map φ) = (uniqueSorted l).map φ := by
  unfold uniqueSorted
  rw [← List.map_insertionSort (r := (· ≤ ·)) (s := (· ≤ ·)) φ l
    (fun a _ b _ => hφ.le_iff_le.symm), List.dedup_map_of_injective hφ.injective]

theorem timesOf_clock {φ : K → K} (hφ : StrictMono φ) (evs : List (Event Nat K)) :
    timesOf (evs.map (Event.clock φ)) = (timesOf evs).map φ := by
  unfold timesOf
  rw [← uniqueSorted_map hφ]
  congr 1
  simp [Event.clock, Function.comp_def]

theorem idxOf_map {φ : K → K} (hφ : Function.Injective φ) (l : List K) (t : K) :
    (l.map φ).idxOf (φ t) = l.idxOf t := by
  induction l with
  | nil => rfl
  | cons a l ih =>
    simp only [List.map_cons, List.idxOf_cons]
    by_cases h : a = t
    · subst h; simp
    · have : φ a ≠ φ t := fun e => h (hφ e)
      rw [beq_false_of_ne this, beq_false_of_ne h, ih]

theorem foldl_max_map {φ : K → K} (hφ : StrictMono φ) (l : List K) (a : K) :
    (l.map φ).foldl max (φ a) = φ (l.foldl max a) := by
  induction l generalizing a with
  | nil => rfl
  | cons b l ih => rw [List.map_cons, List.foldl_cons, List.foldl_cons, ← hφ.monotone.map_max, ih]

theorem closestTime_map {φ : K → K} (hφ : StrictMono φ) (times : List K) (t : K) :
    closestTime (times.map φ) (φ t) = (closestTime times t).map fun p => (φ p.1, p.2) := by
  cases times with
  | nil => rfl
  | cons t0 rest =>
    simp only [closestTime, List.map_cons]
    have hmem : φ t ∈ φ t0 :: rest.map φ ↔ t ∈ t0 :: rest := by
      rw [← List.map_cons]
      exact List.mem_map_of_injective hφ.injective
    have hfil : (φ t0 :: rest.map φ).filter (fun u => decide (u ≤ φ t)) =
        ((t0 :: rest).filter fun u => decide (u ≤ t)).map φ := by
      rw [← List.map_cons, List.filter_map]
      congr 1
      refine List.filter_congr fun u _ => ?_
      simp [hφ.le_iff_le]
    have ht' : (if φ t ∈ φ t0 :: rest.map φ then φ t
        else if φ t ≤ φ t0 then φ t0
        else ((φ t0 :: rest.map φ).filter fun u => decide (u ≤ φ t)).foldl max (φ t0)) =
        φ (if t ∈ t0 :: rest then t else if t ≤ t0 then t0
          else ((t0 :: rest).filter fun u => decide (u ≤ t)).foldl max t0) := by
      simp only [hmem, hφ.le_iff_le, hfil, foldl_max_map hφ]
      split
      · rfl
      · split <;> rfl
    rw [ht', ← List.map_cons, idxOf_map hφ.injective]
    rfl

theorem resolve_map {φ : K → K} (hφ : StrictMono φ) (times : List K) (d : K × Nat) (o : Option K) :
    resolve (times.map φ) (φ d.1, d.2) (o.map φ) =
      (resolve times d o).map fun p => (φ p.1, p.2) := by
  cases o with
  | none => rfl
  | some t => exact closestTime_map hφ times t

theorem window_map {φ : K → K} (hφ : StrictMono φ) (times : List K) (a b : Option K) :
    window (times.map φ) (a.map φ) (b.map φ) =
      (window times a b).map fun w => ((φ w.1.1, w.1.2), (φ w.2.1, w.2.2)) := by
  cases times with
  | nil => rfl
  | cons t0 rest =>
    have h1 := resolve_map hφ (t0 :: rest) (t0, 0) a
    have h2 := resolve_map hφ (t0 :: rest) ((t0 :: rest).getLast (by simp), rest.length) b
    simp only [List.map_cons] at h1 h2
    simp only [window, List.map_cons, List.length_map]
    rw [h1]
    have hlast : (φ t0 :: rest.map φ).getLast (by simp) = φ ((t0 :: rest).getLast (by simp)) := by
      have := List.getLast_map (f := φ) (l := t0 :: rest) (by simp)
      simpa only [List.map_cons] using this
    simp only [hlast]
    rw [h2]
    cases resolve (t0 :: rest) (t0, 0) a with
    | error e => rfl
    | ok a =>
      cases resolve (t0 :: rest) ((t0 :: rest).getLast (by simp), rest.length) b with
      | error e => rfl
      | ok b => rfl

/-- The rows of the grid at a time. -/
theorem rowsAt_clock {φ : K → K} (hφ : StrictMono φ) (evs : List (Event Nat K)) (sf : Nat → Bool)
    (t : K) :
    rowsAt (evs.map (Event.clock φ)) sf (φ t) =
      (rowsAt evs sf t).map fun r => (Event.clock φ r.1, r.2) := by
  unfold rowsAt
  rw [List.zipIdx_map, List.flatMap_map, List.map_flatMap]
  congr 1
  funext ⟨e, x⟩
  simp only [Prod.map, Event.clock, id_eq, hφ.injective.eq_iff]
  split <;> split <;> split <;> simp_all [Event.clock]

theorem rowChecked_clock (φ : K → K) (n : Nat) (s : LapState K) (r : Event Nat K × Bool) :
    LapState.rowChecked n s (Event.clock φ r.1, r.2) = LapState.rowChecked n s r := rfl

theorem foldlM_clock (φ : K → K) (n : Nat) (l : List (Event Nat K × Bool)) (s : LapState K) :
    (l.map fun r => (Event.clock φ r.1, r.2)).foldlM (LapState.rowChecked n) s =
      l.foldlM (LapState.rowChecked n) s := by
  rw [List.foldlM_map]
  rfl

theorem lapLoop_clock {φ : K → K} (hφ : StrictMono φ) (n : Nat) (evs : List (Event Nat K))
    (sf : Nat → Bool) (s : LapState K) (ts : List K) :
    lapLoop n (evs.map (Event.clock φ)) sf s (ts.map φ) = lapLoop n evs sf s ts := by
  induction ts generalizing s with
  | nil => rfl
  | cons t ts ih =>
    simp only [lapLoop, List.map_cons, rowsAt_clock hφ, foldlM_clock]
    cases (rowsAt evs sf t).foldlM (LapState.rowChecked n) s with
    | error e => rfl
    | ok s' => simp only [ih]

theorem initialState_clock {φ : K → K} (hφ : StrictMono φ) (n : Nat) (evs : List (Event Nat K))
    (times : List K) (k : Nat) (hk : k ≤ times.length) :
    initialState n (evs.map (Event.clock φ)) (times.map φ) k = initialState n evs times k := by
  unfold initialState
  by_cases h0 : 0 < k
  · simp only [h0, if_true]
    have hlt : k - 1 < times.length := by omega
    have hget : (times.map φ).getD (k - 1) 0 = φ (times.getD (k - 1) 0) := by
      simp [List.getD_eq_getElem?_getD, hlt]
    rw [hget, List.filter_map, List.map_map]
    have hf : (evs.filter ((fun e : Event Nat K => decide (e.start ≤ φ (times.getD (k - 1) 0) ∧
          φ (times.getD (k - 1) 0) < e.stop)) ∘ Event.clock φ)) =
        evs.filter fun e => decide (e.start ≤ times.getD (k - 1) 0 ∧ times.getD (k - 1) 0 < e.stop) := by
      refine List.filter_congr fun e _ => ?_
      simp only [Function.comp, Event.clock, hφ.le_iff_le, hφ.lt_iff_lt]
    rw [hf]
    have := foldlM_clock φ n ((evs.filter fun e => decide (e.start ≤ times.getD (k - 1) 0 ∧
      times.getD (k - 1) 0 < e.stop)).map fun e => (e, true)) LapState.init
    rw [List.map_map] at this
    exact this
  · simp only [h0, if_false]

/-- The window of Laplacians with its times read off another clock. -/
def Laps.clock (φ : K → K) (L : Laps K) : Laps K :=
  { L with tStart := φ L.tStart, tStop := φ L.tStop }

theorem window_lt {times : List K} {a b : Option K} {w} (hp : times.Pairwise (· < ·))
    (h : window times a b = .ok w) : w.1.2 < times.length ∧ w.2.2 < times.length := by
  cases times with
  | nil => simp [window] at h
  | cons t0 rest =>
    have hr : ∀ (d : K × Nat) (o : Option K) (r : K × Nat), d.2 < (t0 :: rest).length →
        resolve (t0 :: rest) d o = .ok r → r.2 < (t0 :: rest).length := by
      intro d o r hd hr
      cases o with
      | none =>
        simp only [resolve, Except.ok.injEq] at hr
        subst hr; exact hd
      | some t =>
        obtain ⟨k, hk, h1, _⟩ := closestTime_spec (t0 :: rest) hp (by simp) t
        simp only [resolve] at hr
        rw [h1] at hr
        simp only [Except.ok.injEq] at hr
        subst hr; exact hk
    simp only [window] at h
    cases h1 : resolve (t0 :: rest) (t0, 0) a with
    | error e => rw [h1] at h; simp at h
    | ok x =>
      cases h2 : resolve (t0 :: rest) ((t0 :: rest).getLast (by simp), rest.length) b with
      | error e => rw [h1, h2] at h; simp at h
      | ok y =>
        rw [h1, h2] at h
        simp only [Except.ok.injEq] at h
        subst h
        exact ⟨hr _ _ _ (by simp) h1, hr _ _ _ (by simp) h2⟩

theorem computeLaplacians_clock {φ : K → K} (hφ : StrictMono φ) (n : Nat)
    (evs : List (Event Nat K)) (sf : Nat → Bool) (a b : Option K) :
    computeLaplacians n (evs.map (Event.clock φ)) sf (a.map φ) (b.map φ) =
      (computeLaplacians n evs sf a b).map (Laps.clock φ) := by
  unfold computeLaplacians
  simp only [timesOf_clock hφ, window_map hφ]
  cases hw : window (timesOf evs) a b with
  | error e => rfl
  | ok w =>
    obtain ⟨⟨ta, ka⟩, ⟨tb, kb⟩⟩ := w
    have hlt := window_lt (uniqueSorted_lt _) hw
    simp only [Except.map]
    rw [initialState_clock hφ n evs _ _ (by exact hlt.1.le)]
    cases initialState n evs (timesOf evs) ka with
    | error e => rfl
    | ok s0 =>
      simp only
      have hf : ((timesOf evs).map φ).filter (fun t => decide (φ ta ≤ t ∧ t < φ tb)) =
          ((timesOf evs).filter fun t => decide (ta ≤ t ∧ t < tb)).map φ := by
        rw [List.filter_map]
        congr 1
        refine List.filter_congr fun t _ => ?_
        simp only [Function.comp, hφ.le_iff_le, hφ.lt_iff_lt]
      rw [hf, lapLoop_clock hφ]
      cases lapLoop n evs sf s0 ((timesOf evs).filter fun t => decide (ta ≤ t ∧ t < tb)) with
      | error e => rfl
      | ok st => rfl

/-! ### constructor -/

theorem ofEvents_clock {L : Type} [LinearOrder L] {φ : K → K} (hφ : StrictMono φ)
    (evs : List (Event L K)) :
    ofEvents (evs.map (Event.clock φ)) =
      { ofEvents evs with events := (ofEvents evs).events.map (Event.clock φ) } := by
  have hl : allLabels (evs.map (Event.clock φ)) = allLabels evs := by
    unfold allLabels
    congr 1
    simp [Event.clock, Function.comp_def]
  have hev : ((evs.map (Event.clock φ)).map fun e =>
        (⟨(allLabels evs).idxOf e.src, (allLabels evs).idxOf e.tgt, e.start, e.stop⟩ : Event Nat K))
        = (evs.map fun e =>
        (⟨(allLabels evs).idxOf e.src, (allLabels evs).idxOf e.tgt, e.start, e.stop⟩ : Event Nat K)).map
          (Event.clock φ) := by
    simp [Event.clock, Function.comp_def]
  unfold ofEvents
  simp only [hl, hev]
  rw [← List.map_insertionSort (r := Event.le) (s := Event.le) (Event.clock φ) _ (by
    intro a _ b _
    simp only [Event.le, Event.clock, hφ.lt_iff_lt, hφ.injective.eq_iff, hφ.le_iff_le])]
  congr 1
  unfold nodeArray
  simp [Event.clock, Function.comp_def]

end Verif.Units
