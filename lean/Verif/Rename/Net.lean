import Verif.Rename.Spec
import Verif.TempNet.Props

/-!
# Laplacians of a network with other names
-/

set_option linter.unusedSectionVars false

namespace Verif.Rename

open Verif.TempNet Verif.Trans

variable {K : Type} [Field K] [LinearOrder K] [IsStrictOrderedRing K]

/-! ### permutations -/

theorem PermBelow.surj {n : Nat} {π : Nat → Nat} (h : PermBelow n π) {k : Nat} (hk : k < n) :
    ∃ i, i < n ∧ π i = k := by
  have hs := Finset.surjOn_of_injOn_of_card_le (s := Finset.range n) (t := Finset.range n) π
    (fun i hi => by
      have hi' : i < n := by simpa using hi
      simpa using h.1 i hi')
    (fun i hi j hj e => h.2 i j (by simpa using hi) (by simpa using hj) e) le_rfl
  obtain ⟨i, hi, e⟩ := hs (show k ∈ ((Finset.range n : Finset Nat) : Set Nat) by simpa using hk)
  exact ⟨i, by simpa using hi, e⟩

theorem PermBelow.eq_iff {n : Nat} {π : Nat → Nat} (h : PermBelow n π) {i j : Nat} (hi : i < n)
    (hj : j < n) : π i = π j ↔ i = j := ⟨h.2 i j hi hj, fun e => e ▸ rfl⟩

theorem PermBelow.sum {M : Type} [AddCommMonoid M] {n : Nat} {π : Nat → Nat} (h : PermBelow n π)
    (F : Nat → M) : ∑ k ∈ Finset.range n, F k = ∑ k ∈ Finset.range n, F (π k) := by
  symm
  refine Finset.sum_bij (fun i _ => π i) ?_ ?_ ?_ ?_
  · intro i hi; simpa using h.1 i (by simpa using hi)
  · intro i hi j hj e; exact h.2 i j (by simpa using hi) (by simpa using hj) e
  · intro k hk
    obtain ⟨i, hi, e⟩ := h.surj (by simpa using hk : k < n)
    exact ⟨i, by simpa using hi, e⟩
  · intro i _; rfl

/-! ### the constructor -/

/-- The number of a node among the new names. -/
def newIndex {L L' : Type} [LinearOrder L] [LinearOrder L'] (f : L → L') (evs : List (Event L K))
    (i : Nat) : Nat :=
  match (allLabels evs)[i]? with
  | none => i
  | some l => (allLabels (evs.map (Event.rename f))).idxOf (f l)

section net
variable {L L' : Type} [LinearOrder L] [LinearOrder L']

theorem mem_allLabels_rename {f : L → L'} (evs : List (Event L K)) (x : L') :
    x ∈ allLabels (evs.map (Event.rename f)) ↔ ∃ l ∈ allLabels evs, f l = x := by
  rw [mem_allLabels]
  constructor
  · rintro ⟨e, he, h⟩
    obtain ⟨e0, he0, rfl⟩ := List.mem_map.1 he
    rcases h with h | h
    · exact ⟨e0.src, (mem_allLabels _ _).2 ⟨e0, he0, .inl rfl⟩, h.symm⟩
    · exact ⟨e0.tgt, (mem_allLabels _ _).2 ⟨e0, he0, .inr rfl⟩, h.symm⟩
  · rintro ⟨l, hl, rfl⟩
    obtain ⟨e, he, h⟩ := (mem_allLabels _ _).1 hl
    refine ⟨Event.rename f e, List.mem_map_of_mem he, ?_⟩
    rcases h with h | h
    · exact .inl (by rw [h]; rfl)
    · exact .inr (by rw [h]; rfl)

theorem allLabels_nodup (evs : List (Event L K)) : (allLabels evs).Nodup := uniqueSorted_nodup _

theorem allLabels_length {f : L → L'} (hf : Function.Injective f) (evs : List (Event L K)) :
    (allLabels (evs.map (Event.rename f))).length = (allLabels evs).length := by
  have hp : (allLabels (evs.map (Event.rename f))).Perm ((allLabels evs).map f) := by
    rw [List.perm_ext_iff_of_nodup (allLabels_nodup _) ((allLabels_nodup _).map hf)]
    intro x
    rw [mem_allLabels_rename, List.mem_map]
  rw [hp.length_eq, List.length_map]

theorem newIndex_spec {f : L → L'} (evs : List (Event L K)) (i : Nat)
    (hi : i < (allLabels evs).length) :
    (allLabels (evs.map (Event.rename f)))[newIndex f evs i]? = some (f (allLabels evs)[i]) := by
  unfold newIndex
  rw [List.getElem?_eq_getElem hi]
  simp only
  have hm : f (allLabels evs)[i] ∈ allLabels (evs.map (Event.rename f)) :=
    (mem_allLabels_rename evs _).2 ⟨_, List.getElem_mem hi, rfl⟩
  rw [List.getElem?_eq_getElem (List.idxOf_lt_length_iff.2 hm), List.getElem_idxOf]

theorem newIndex_perm {f : L → L'} (hf : Function.Injective f) (evs : List (Event L K)) :
    PermBelow (allLabels evs).length (newIndex f evs) := by
  constructor
  · intro i hi
    have := newIndex_spec (f := f) evs i hi
    have h := (List.getElem?_eq_some_iff.1 this).1
    rwa [allLabels_length hf] at h
  · intro i j hi hj e
    have h1 := newIndex_spec (f := f) evs i hi
    have h2 := newIndex_spec (f := f) evs j hj
    rw [e, h2] at h1
    have := hf (Option.some.inj h1)
    exact ((allLabels_nodup evs).getElem_inj_iff.1 this).symm

theorem newIndex_idxOf {f : L → L'} (evs : List (Event L K)) (l : L) (hl : l ∈ allLabels evs) :
    newIndex f evs ((allLabels evs).idxOf l) = (allLabels (evs.map (Event.rename f))).idxOf (f l) := by
  unfold newIndex
  rw [List.getElem?_eq_getElem (List.idxOf_lt_length_iff.2 hl), List.getElem_idxOf]

theorem ofEvents_rename {f : L → L'} (evs : List (Event L K)) :
    (ofEvents (evs.map (Event.rename f))).events =
      (ofEvents evs).events.map (Event.rename (newIndex f evs)) := by
  unfold ofEvents
  simp only
  rw [List.map_insertionSort (r := Event.le) (s := Event.le) (Event.rename (newIndex f evs)) _
    (by intro a _ b _; rfl)]
  congr 1
  rw [List.map_map, List.map_map]
  refine List.map_congr_left fun e he => ?_
  simp only [Function.comp, Event.rename, TempNet.Event.mk.injEq, and_true]
  exact ⟨(newIndex_idxOf evs _ ((mem_allLabels _ _).2 ⟨e, he, .inl rfl⟩)).symm,
    (newIndex_idxOf evs _ ((mem_allLabels _ _).2 ⟨e, he, .inr rfl⟩)).symm⟩

end net

/-! ### the event loop -/

variable {n : Nat} {π : Nat → Nat}

theorem timesOf_rename (evs : List (Event Nat K)) (π : Nat → Nat) :
    timesOf (evs.map (Event.rename π)) = timesOf evs := by
  unfold timesOf
  simp [Event.rename, Function.comp_def]

/-- The matrices of the event loop, renumbered. -/
structure RelState (n : Nat) (π : Nat → Nat) (s s' : LapState K) : Prop where
  A : Renumbered n π s.A s'.A
  deg : RenumberedVec n π s.deg s'.deg
  S : RenumberedVec n π s.S s'.S
  Dm1 : RenumberedVec n π s.Dm1 s'.Dm1

theorem relState_init (hπ : PermBelow n π) : RelState n π (LapState.init (K := K)) LapState.init :=
  ⟨fun _ _ _ _ => rfl, fun _ _ => rfl, fun _ _ => rfl, fun _ _ => rfl⟩

theorem setPair_ren (hπ : PermBelow n π) {A B : Mat K} (h : Renumbered n π A B) {i j : Nat}
    (hi : i < n) (hj : j < n) (v : K) :
    Renumbered n π (setPair A i j v) (setPair B (π i) (π j) v) := by
  intro a b ha hb
  simp only [setPair, hπ.eq_iff ha hj, hπ.eq_iff hb hi, hπ.eq_iff ha hi, hπ.eq_iff hb hj, h a b ha hb]

theorem addAt_ren (hπ : PermBelow n π) {p q : Nat → K} (h : RenumberedVec n π p q) {i : Nat}
    (hi : i < n) (v : K) : RenumberedVec n π (addAt p i v) (addAt q (π i) v) := by
  intro a ha
  simp only [addAt, hπ.eq_iff ha hi, h a ha]

theorem set_ren (hπ : PermBelow n π) {p q : Nat → K} (h : RenumberedVec n π p q) {i : Nat}
    (hi : i < n) (v : K) :
    RenumberedVec n π (fun a => if a = i then v else p a) (fun a => if a = π i then v else q a) := by
  intro a ha
  simp only [hπ.eq_iff ha hi, h a ha]

theorem refresh_ren (hπ : PermBelow n π) {s s' : LapState K} (h : RelState n π s s') {i : Nat}
    (hi : i < n) : RelState n π (s.refresh i) (s'.refresh (π i)) := by
  unfold LapState.refresh
  rw [h.deg i hi]
  split
  · exact ⟨h.A, h.deg, set_ren hπ h.S hi _, set_ren hπ h.Dm1 hi _⟩
  · exact ⟨h.A, h.deg, set_ren hπ h.S hi _, set_ren hπ h.Dm1 hi _⟩

theorem connect_ren (hπ : PermBelow n π) {s s' : LapState K} (h : RelState n π s s') {i j : Nat}
    (hi : i < n) (hj : j < n) : RelState n π (s.connect i j) (s'.connect (π i) (π j)) := by
  unfold LapState.connect
  rw [h.A i j hi hj]
  split
  · exact ⟨setPair_ren hπ h.A hi hj _, addAt_ren hπ (addAt_ren hπ h.deg hi _) hj _, h.S, h.Dm1⟩
  · exact h

theorem disconnect_ren (hπ : PermBelow n π) {s s' : LapState K} (h : RelState n π s s') {i j : Nat}
    (hi : i < n) (hj : j < n) : RelState n π (s.disconnect i j) (s'.disconnect (π i) (π j)) := by
  unfold LapState.disconnect
  rw [h.A i j hi hj]
  split
  · exact ⟨setPair_ren hπ h.A hi hj _, addAt_ren hπ (addAt_ren hπ h.deg hi _) hj _, h.S, h.Dm1⟩
  · exact h

theorem row_ren (hπ : PermBelow n π) {s s' : LapState K} (h : RelState n π s s')
    (e : Event Nat K) (hi : e.src < n) (hj : e.tgt < n) (b : Bool) :
    RelState n π (s.row e b) (s'.row (Event.rename π e) b) := by
  unfold LapState.row
  cases b with
  | false => exact refresh_ren hπ (refresh_ren hπ (disconnect_ren hπ h hi hj) hi) hj
  | true => exact refresh_ren hπ (refresh_ren hπ (connect_ren hπ h hi hj) hi) hj

theorem instRow_ren' (hπ : PermBelow n π) {s s' : LapState K} (h : RelState n π s s')
    (e e' : Event Nat K) (hi : e.src < n) (hj : e.tgt < n) (hs : e'.src = π e.src)
    (ht : e'.tgt = π e.tgt) (b : Bool) :
    RelState n π (s.instRow e b) (s'.instRow e' b) := by
  cases b with
  | false => exact h
  | true =>
    have hd := addAt_ren hπ (addAt_ren hπ h.deg hi 1) hj 1
    simp only [LapState.instRow, if_true]
    have hA : s'.A e'.src e'.tgt = s.A e.src e.tgt := by rw [hs, ht]; exact h.A _ _ hi hj
    split
    · rename_i h1
      split
      · rw [hs, ht]
        refine ⟨setPair_ren hπ h.A hi hj _, hd, set_ren hπ (set_ren hπ h.S hi _) hj _, ?_⟩
        simp only
        rw [hd _ hj, hd _ hi]
        exact set_ren hπ (set_ren hπ h.Dm1 hi _) hj _
      · rename_i h2
        exact absurd (by rw [hA]; exact h1) h2
    · rename_i h1
      split
      · rename_i h2
        exact absurd (by rw [← hA]; exact h2) h1
      · exact h

theorem instRow_ren (hπ : PermBelow n π) {s s' : LapState K} (h : RelState n π s s')
    (e : Event Nat K) (hi : e.src < n) (hj : e.tgt < n) (b : Bool) :
    RelState n π (s.instRow e b) (s'.instRow (Event.rename π e) b) :=
  instRow_ren' hπ h e _ hi hj rfl rfl b

/-- Two results that are the same exception or related values. -/
def RelRes {ε α β : Type} (R : α → β → Prop) (x : Except ε α) (y : Except ε β) : Prop :=
  (∃ e, x = .error e ∧ y = .error e) ∨ ∃ a b, x = .ok a ∧ y = .ok b ∧ R a b

theorem fold_ren (hπ : PermBelow n π) {step : LapState K → Event Nat K × Bool → Except TempNet.Err (LapState K)}
    (hstep : ∀ s s' r, RelState n π s s' → r.1.src < n → r.1.tgt < n →
      ∃ t t', step s r = .ok t ∧ step s' (Event.rename π r.1, r.2) = .ok t' ∧ RelState n π t t')
    (l : List (Event Nat K × Bool)) (hl : ∀ r ∈ l, r.1.src < n ∧ r.1.tgt < n) {s s' : LapState K}
    (h : RelState n π s s') :
    ∃ t t', l.foldlM step s = .ok t ∧
      (l.map fun r => (Event.rename π r.1, r.2)).foldlM step s' = .ok t' ∧ RelState n π t t' := by
  induction l generalizing s s' with
  | nil => exact ⟨s, s', rfl, rfl, h⟩
  | cons r l ih =>
    obtain ⟨hr1, hr2⟩ := hl r List.mem_cons_self
    obtain ⟨t, t', h1, h2, h3⟩ := hstep s s' r h hr1 hr2
    obtain ⟨u, u', h4, h5, h6⟩ := ih (fun r hr => hl r (List.mem_cons_of_mem _ hr)) h3
    refine ⟨u, u', ?_, ?_, h6⟩
    · rw [List.foldlM_cons, h1]; exact h4
    · rw [List.map_cons, List.foldlM_cons, h2]; exact h5

theorem rowChecked_ren (hπ : PermBelow n π) (s s' : LapState K) (r : Event Nat K × Bool)
    (h : RelState n π s s') (hi : r.1.src < n) (hj : r.1.tgt < n) :
    ∃ t t', LapState.rowChecked n s r = .ok t ∧
      LapState.rowChecked n s' (Event.rename π r.1, r.2) = .ok t' ∧ RelState n π t t' := by
  refine ⟨_, _, if_pos ⟨hi, hj⟩, if_pos ⟨hπ.1 _ hi, hπ.1 _ hj⟩, row_ren hπ h _ hi hj _⟩

theorem instRowChecked_ren (hπ : PermBelow n π) (s s' : LapState K) (r : Event Nat K × Bool)
    (h : RelState n π s s') (hi : r.1.src < n) (hj : r.1.tgt < n) :
    ∃ t t', LapState.instRowChecked n s r = .ok t ∧
      LapState.instRowChecked n s' (Event.rename π r.1, r.2) = .ok t' ∧ RelState n π t t' :=
  ⟨_, _, if_pos (.inr ⟨hi, hj⟩), if_pos (.inr ⟨hπ.1 _ hi, hπ.1 _ hj⟩), instRow_ren hπ h _ hi hj _⟩

theorem rowsAt_rename (evs : List (Event Nat K)) (sf : Nat → Bool) (t : K) (π : Nat → Nat) :
    rowsAt (evs.map (Event.rename π)) sf t =
      (rowsAt evs sf t).map fun r => (Event.rename π r.1, r.2) := by
  unfold rowsAt
  rw [List.zipIdx_map, List.flatMap_map, List.map_flatMap]
  congr 1
  funext ⟨e, x⟩
  simp only [Prod.map, Event.rename, id_eq]
  split <;> by_cases h1 : e.start = t <;> by_cases h2 : e.stop = t <;> simp [h1, h2, Event.rename]

theorem rowsAt_mem {evs : List (Event Nat K)} {sf : Nat → Bool} {t : K} {r : Event Nat K × Bool}
    (h : r ∈ rowsAt evs sf t) : r.1 ∈ evs := by
  unfold rowsAt at h
  obtain ⟨⟨e, x⟩, hx, h⟩ := List.mem_flatMap.1 h
  have he : e ∈ evs := (List.mem_zipIdx' hx).2 ▸ List.getElem_mem _
  simp only at h
  split at h <;> rw [List.mem_append] at h <;> rcases h with h | h <;> split at h <;>
    simp at h <;> rw [h] <;> exact he

theorem lapLoop_ren (hπ : PermBelow n π) {evs : List (Event Nat K)} (hr : InRange n evs)
    (sf : Nat → Bool) (ts : List K) {s s' : LapState K} (h : RelState n π s s') :
    ∃ l l', lapLoop n evs sf s ts = .ok l ∧
      lapLoop n (evs.map (Event.rename π)) sf s' ts = .ok l' ∧ List.Forall₂ (RelState n π) l l' := by
  induction ts generalizing s s' with
  | nil => exact ⟨[], [], rfl, rfl, .nil⟩
  | cons t ts ih =>
    obtain ⟨u, u', h1, h2, h3⟩ := fold_ren hπ (rowChecked_ren hπ) (rowsAt evs sf t)
      (fun r hr' => hr _ (rowsAt_mem hr')) h
    obtain ⟨l, l', h4, h5, h6⟩ := ih h3
    refine ⟨u :: l, u' :: l', ?_, ?_, .cons h3 h6⟩
    · simp only [lapLoop, h1, h4]
    · simp only [lapLoop, rowsAt_rename, h2, h5]

theorem instLoop_ren (hπ : PermBelow n π) {evs : List (Event Nat K)} (hr : InRange n evs)
    (sf : Nat → Bool) (ts : List K) :
    ∃ l l', instLoop n evs sf ts = .ok l ∧
      instLoop n (evs.map (Event.rename π)) sf ts = .ok l' ∧ List.Forall₂ (RelState n π) l l' := by
  induction ts with
  | nil => exact ⟨[], [], rfl, rfl, .nil⟩
  | cons t ts ih =>
    obtain ⟨u, u', h1, h2, h3⟩ := fold_ren hπ (instRowChecked_ren hπ) (rowsAt evs sf t)
      (fun r hr' => hr _ (rowsAt_mem hr')) (relState_init hπ)
    obtain ⟨l, l', h4, h5, h6⟩ := ih
    refine ⟨u :: l, u' :: l', ?_, ?_, .cons h3 h6⟩
    · simp only [instLoop, h1, h4]
    · simp only [instLoop, rowsAt_rename, h2, h5]

theorem initialState_ren (hπ : PermBelow n π) {evs : List (Event Nat K)} (hr : InRange n evs)
    (times : List K) (k : Nat) :
    ∃ s s', initialState n evs times k = .ok s ∧
      initialState n (evs.map (Event.rename π)) times k = .ok s' ∧ RelState n π s s' := by
  unfold initialState
  by_cases h0 : 0 < k
  · simp only [h0, if_true]
    obtain ⟨s, s', h1, h2, h3⟩ := fold_ren hπ (rowChecked_ren hπ)
      ((evs.filter fun e : Event Nat K => decide (e.start ≤ times.getD (k - 1) 0 ∧
        times.getD (k - 1) 0 < e.stop)).map fun e => (e, true))
      (by
        intro r hr'
        obtain ⟨e, he, rfl⟩ := List.mem_map.1 hr'
        exact hr _ (List.mem_filter.1 he).1) (relState_init (K := K) hπ)
    refine ⟨s, s', h1, ?_, h3⟩
    rw [List.filter_map, List.map_map]
    rw [List.map_map] at h2
    exact h2
  · simp only [h0, if_false]
    exact ⟨_, _, rfl, rfl, relState_init hπ⟩

theorem laplacian_ren (hπ : PermBelow n π) {s s' : LapState K} (h : RelState n π s s') :
    Renumbered n π s.laplacian s'.laplacian := by
  intro i j hi hj
  simp only [LapState.laplacian, hπ.eq_iff hi hj, h.Dm1 i hi, h.A i j hi hj, h.S i hi]

/-- Two windows of Laplacians: same window, same number of matrices, renumbered. -/
structure RelLaps (n : Nat) (π : Nat → Nat) (L L' : Laps K) : Prop where
  tStart : L'.tStart = L.tStart
  kStart : L'.kStart = L.kStart
  tStop : L'.tStop = L.tStop
  kStop : L'.kStop = L.kStop
  laplacians : List.Forall₂ (Renumbered n π) L.laplacians L'.laplacians
  adjacencies : List.Forall₂ (Renumbered n π) L.adjacencies L'.adjacencies

theorem relLaps_of (hπ : PermBelow n π) {l l' : List (LapState K)} (h : List.Forall₂ (RelState n π) l l')
    (a b : K × Nat) :
    RelLaps n π (⟨a.1, a.2, b.1, b.2, l.map LapState.laplacian, l.map LapState.A⟩ : Laps K)
      ⟨a.1, a.2, b.1, b.2, l'.map LapState.laplacian, l'.map LapState.A⟩ := by
  refine ⟨rfl, rfl, rfl, rfl, ?_, ?_⟩
  · rw [List.forall₂_map_left_iff, List.forall₂_map_right_iff]
    exact h.imp fun _ _ h => laplacian_ren hπ h
  · rw [List.forall₂_map_left_iff, List.forall₂_map_right_iff]
    exact h.imp fun _ _ h => h.A

theorem computeLaplacians_ren (hπ : PermBelow n π) {evs : List (Event Nat K)} (hr : InRange n evs)
    (sf : Nat → Bool) (a b : Option K) :
    RelRes (RelLaps n π) (computeLaplacians n evs sf a b)
      (computeLaplacians n (evs.map (Event.rename π)) sf a b) := by
  unfold computeLaplacians
  simp only [timesOf_rename]
  cases window (timesOf evs) a b with
  | error e => exact .inl ⟨e, rfl, rfl⟩
  | ok w =>
    obtain ⟨a, b⟩ := w
    obtain ⟨s, s', h1, h2, h3⟩ := initialState_ren hπ hr (timesOf evs) a.2
    obtain ⟨l, l', h4, h5, h6⟩ := lapLoop_ren hπ hr sf
      ((timesOf evs).filter fun t => decide (a.1 ≤ t ∧ t < b.1)) h3
    simp only [h1, h2, h4, h5]
    exact .inr ⟨_, _, rfl, rfl, relLaps_of hπ h6 a b⟩

theorem computeInstLaplacians_ren (hπ : PermBelow n π) {evs : List (Event Nat K)} (hr : InRange n evs)
    (sf : Nat → Bool) (a b : Option K) :
    RelRes (RelLaps n π) (computeInstLaplacians n evs sf a b)
      (computeInstLaplacians n (evs.map (Event.rename π)) sf a b) := by
  unfold computeInstLaplacians
  simp only [timesOf_rename]
  cases window (timesOf evs) a b with
  | error e => exact .inl ⟨e, rfl, rfl⟩
  | ok w =>
    obtain ⟨a, b⟩ := w
    obtain ⟨l, l', h4, h5, h6⟩ := instLoop_ren hπ hr sf
      ((timesOf evs).filter fun t => decide (a.1 ≤ t ∧ t < b.1))
    simp only [h4, h5]
    exact .inr ⟨_, _, rfl, rfl, relLaps_of hπ h6 a b⟩

theorem staticAdjacency_ren (hπ : PermBelow n π) {evs : List (Event Nat K)} (hr : InRange n evs)
    (a b : K) : Renumbered n π (staticAdjacency evs a b) (staticAdjacency (evs.map (Event.rename π)) a b) := by
  have key : ∀ i j, i < n → j < n →
      staticCoo (evs.map (Event.rename π)) a b (π i) (π j) = staticCoo evs a b i j := by
    intro i j hi hj
    unfold staticCoo
    rw [List.filter_map, List.filter_map, List.map_map]
    congr 1
    have hf : ((evs.filter ((fun e : Event Nat K => decide (e.start < b ∧ a < e.stop)) ∘ Event.rename π)).filter
        ((fun e : Event Nat K => decide (e.src = π i ∧ e.tgt = π j)) ∘ Event.rename π)) =
        (evs.filter fun e => decide (e.start < b ∧ a < e.stop)).filter
          fun e => decide (e.src = i ∧ e.tgt = j) := by
      refine List.filter_congr fun e he => ?_
      obtain ⟨h1, h2⟩ := hr e (List.mem_filter.1 he).1
      simp only [Function.comp, Event.rename, hπ.eq_iff h1 hi, hπ.eq_iff h2 hj]
    rw [hf]
    rfl
  intro i j hi hj
  simp only [staticAdjacency, key i j hi hj, key j i hj hi]

end Verif.Rename
