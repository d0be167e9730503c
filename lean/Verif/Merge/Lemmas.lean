import Verif.Merge.Model
import Verif.Merge.Spec
import Verif.TempNet.Props

/-!
# Lemmas about the merging of events
-/

set_option linter.dupNamespace false
set_option linter.unusedSectionVars false
set_option linter.unusedSimpArgs false

namespace Verif.Merge

open Verif.TempNet

variable {K : Type} [Field K] [LinearOrder K] [IsStrictOrderedRing K]

theorem ofPair_iff (n1 n2 : Nat) (e : Event Nat K) : ofPair n1 n2 e = true ↔ e.Pair n1 n2 := by
  simp [ofPair, Event.Pair]

theorem pair_symm {e : Event Nat K} {i j : Nat} : e.Pair i j ↔ e.Pair j i := by
  unfold Event.Pair; tauto

theorem pair_self (e : Event Nat K) : e.Pair e.src e.tgt := Or.inl ⟨rfl, rfl⟩

theorem pair_of {e f : Event Nat K} {i j : Nat} (he : e.Pair i j) (hf : f.Pair i j) :
    e.Pair f.src f.tgt := by
  unfold Event.Pair at *
  rcases he with ⟨a, b⟩ | ⟨a, b⟩ <;> rcases hf with ⟨c, d⟩ | ⟨c, d⟩ <;> simp [a, b, c, d]

theorem pair_trans {e f : Event Nat K} {i j : Nat} (he : e.Pair f.src f.tgt) (hf : f.Pair i j) :
    e.Pair i j := by
  unfold Event.Pair at *
  rcases he with ⟨a, b⟩ | ⟨a, b⟩ <;> rcases hf with ⟨c, d⟩ | ⟨c, d⟩ <;> simp [a, b, c, d]

theorem active_of_pair {evs : List (Event Nat K)} {t : K} {e : Event Nat K} {i j : Nat}
    (he : e.Pair i j) : Active evs t i j ↔ Active evs t e.src e.tgt := by
  unfold Active
  constructor
  · rintro ⟨f, hf, hp, h⟩
    exact ⟨f, hf, pair_of hp he, h⟩
  · rintro ⟨f, hf, hp, h⟩
    exact ⟨f, hf, pair_trans hp he, h⟩

theorem snapLe_total : ∀ a b : Snap K, a.le b ∨ b.le a := by
  intro a b
  unfold Snap.le
  rcases lt_trichotomy a.start b.start with h | h | h
  · exact Or.inl (Or.inl h)
  · rcases le_total a.stop b.stop with h' | h'
    · exact Or.inl (Or.inr ⟨h, h'⟩)
    · exact Or.inr (Or.inr ⟨h.symm, h'⟩)
  · exact Or.inr (Or.inl h)

theorem snapLe_trans : ∀ a b c : Snap K, a.le b → b.le c → a.le c := by
  intro a b c
  unfold Snap.le
  rintro (h | ⟨h, h'⟩) (g | ⟨g, g'⟩)
  · exact Or.inl (h.trans g)
  · exact Or.inl (g ▸ h)
  · exact Or.inl (h ▸ g)
  · exact Or.inr ⟨h.trans g, h'.trans g'⟩

instance : Std.Total (Snap.le (K := K)) := ⟨snapLe_total⟩
instance : IsTrans (Snap K) Snap.le := ⟨snapLe_trans⟩

theorem mem_zip {α : Type} {l : List α} {e : α} {i : Nat} : (e, i) ∈ l.zipIdx ↔ l[i]? = some e := by
  rw [List.mem_zipIdx_iff_getElem?]

theorem mem_pairSnaps {evs : List (Event Nat K)} {st : MState K} {n1 n2 : Nat} {s : Snap K} :
    s ∈ pairSnaps evs st n1 n2 ↔
      ∃ e, evs[s.id]? = some e ∧ e.Pair n1 n2 ∧ s.start = e.start ∧ s.stop = st.ends s.id := by
  unfold pairSnaps
  rw [List.mem_insertionSort]
  simp only [List.mem_map, List.mem_filter, Prod.exists, mem_zip, ofPair_iff]
  constructor
  · rintro ⟨e, i, ⟨h1, h2⟩, rfl⟩
    exact ⟨e, h1, h2, rfl, rfl⟩
  · rintro ⟨e, h1, h2, h3, h4⟩
    exact ⟨e, s.id, ⟨h1, h2⟩, by cases s; simp_all⟩

theorem pairSnaps_sorted (evs : List (Event Nat K)) (st : MState K) (n1 n2 : Nat) :
    (pairSnaps evs st n1 n2).Pairwise fun a b => a.start ≤ b.start := by
  refine (List.pairwise_insertionSort Snap.le _).imp ?_
  intro a b h
  rcases h with h | h
  · exact h.le
  · exact h.1.le

theorem pairSnaps_nodup (evs : List (Event Nat K)) (st : MState K) (n1 n2 : Nat) :
    ((pairSnaps evs st n1 n2).map Snap.id).Nodup := by
  unfold pairSnaps
  refine (((List.perm_insertionSort Snap.le _).map Snap.id).nodup_iff).2 ?_
  rw [List.map_map]
  have : (evs.zipIdx.map Prod.snd).Nodup := by
    rw [List.zipIdx_map_snd]; exact List.nodup_range'
  exact this.sublist (List.filter_sublist.map Prod.snd)

theorem pairSnaps_symm (evs : List (Event Nat K)) (st : MState K) (n1 n2 : Nat) :
    pairSnaps evs st n1 n2 = pairSnaps evs st n2 n1 := by
  unfold pairSnaps
  congr 2
  apply List.filter_congr
  intro p _
  unfold ofPair
  rw [Bool.or_comm]

/-! ### The run over one pair -/

theorem run_ends_frame (rest : List (Snap K)) : ∀ (ev1 : Snap K) (st : MState K) (i : Nat),
    i ≠ ev1.id → i ∉ rest.map Snap.id → (mergeRun ev1 rest st).ends i = st.ends i := by
  induction rest with
  | nil => intro ev1 st i _ _; rfl
  | cons ev2 rest ih =>
    intro ev1 st i h1 h2
    simp only [List.map_cons, List.mem_cons, not_or] at h2
    unfold mergeRun
    split
    · rw [ih _ _ _ h1 h2.2]; simp [h1]
    · rw [ih _ _ _ h2.1 h2.2]

theorem run_keep_frame (rest : List (Snap K)) : ∀ (ev1 : Snap K) (st : MState K) (i : Nat),
    i ∉ rest.map Snap.id → (mergeRun ev1 rest st).keep i = st.keep i := by
  induction rest with
  | nil => intro ev1 st i _; rfl
  | cons ev2 rest ih =>
    intro ev1 st i h2
    simp only [List.map_cons, List.mem_cons, not_or] at h2
    unfold mergeRun
    split
    · rw [ih _ _ _ h2.2]; simp [h2.1]
    · rw [ih _ _ _ h2.2]

theorem run_keep_mono (rest : List (Snap K)) : ∀ (ev1 : Snap K) (st : MState K) (i : Nat),
    (mergeRun ev1 rest st).keep i = true → st.keep i = true := by
  induction rest with
  | nil => intro ev1 st i h; exact h
  | cons ev2 rest ih =>
    intro ev1 st i h
    unfold mergeRun at h
    split at h
    · have := ih _ _ _ h
      simp only at this
      split at this
      · cases this
      · exact this
    · exact ih _ _ _ h

/-- A run that marks nothing changes nothing and found no overlap. -/
theorem run_none (rest : List (Snap K)) : ∀ (ev1 : Snap K) (st : MState K),
    (∀ s ∈ rest, (mergeRun ev1 rest st).keep s.id = true) →
    mergeRun ev1 rest st = st ∧ (ev1 :: rest).IsChain fun a b => a.stop ≤ b.start := by
  induction rest with
  | nil => intro ev1 st _; exact ⟨rfl, by simp⟩
  | cons ev2 rest ih =>
    intro ev1 st h
    have h0 := h ev2 (by simp)
    unfold mergeRun at h h0 ⊢
    split at h0
    · have := run_keep_mono _ _ _ _ h0
      simp at this
    · rename_i hlt
      rw [if_neg hlt]
      simp only [if_neg hlt] at h
      obtain ⟨h1, h2⟩ := ih ev2 st (fun s hs => h s (List.mem_cons_of_mem _ hs))
      exact ⟨h1, List.isChain_cons_cons.2 ⟨not_lt.1 hlt, h2⟩⟩

theorem run_chain (rest : List (Snap K)) : ∀ (ev1 : Snap K) (st : MState K),
    ((ev1 :: rest).IsChain fun a b => a.stop ≤ b.start) → mergeRun ev1 rest st = st := by
  induction rest with
  | nil => intro ev1 st _; rfl
  | cons ev2 rest ih =>
    intro ev1 st h
    rw [List.isChain_cons_cons] at h
    unfold mergeRun
    rw [if_neg (not_lt.2 h.1)]
    exact ih _ _ h.2

/-- Every ending time in use lies after the start, and the time up to it belongs to contacts
of the table. -/
def Inv (evs : List (Event Nat K)) (st : MState K) : Prop :=
  ∀ (i : Nat) (e : Event Nat K), evs[i]? = some e → e.start < st.ends i ∧
    ∀ t, e.start ≤ t → t < st.ends i → Active evs t e.src e.tgt

theorem run_inv (evs : List (Event Nat K)) (n1 n2 : Nat) (rest : List (Snap K)) :
    ∀ (ev1 : Snap K) (st : MState K), Inv evs st →
      (∀ s ∈ ev1 :: rest, ∃ e, evs[s.id]? = some e ∧ e.Pair n1 n2 ∧ s.start = e.start ∧
        s.start < s.stop ∧ ∀ t, s.start ≤ t → t < s.stop → Active evs t n1 n2) →
      ((ev1 :: rest).Pairwise fun a b => a.start ≤ b.start) →
      Inv evs (mergeRun ev1 rest st) := by
  induction rest with
  | nil => intro ev1 st h _ _; exact h
  | cons ev2 rest ih =>
    intro ev1 st h hs hp
    have hp' := hp
    rw [List.pairwise_cons, List.pairwise_cons] at hp'
    unfold mergeRun
    split
    · rename_i hlt
      apply ih
      · intro i e hi
        obtain ⟨e1, a1, a2, a3, a4, a5⟩ := hs ev1 (by simp)
        obtain ⟨e2, b1, b2, b3, b4, b5⟩ := hs ev2 (by simp)
        by_cases hid : i = ev1.id
        · subst hid
          rw [a1] at hi
          cases hi
          have hle := hp'.1 ev2 (by simp)
          simp only [if_true]
          refine ⟨by rw [← a3]; exact lt_of_le_of_lt hle b4, ?_⟩
          intro t ht ht'
          rw [← active_of_pair a2]
          by_cases hc : t < ev1.stop
          · exact a5 t (a3 ▸ ht) hc
          · exact b5 t (hlt.le.trans (not_lt.1 hc)) ht'
        · simp only [if_neg hid]
          exact h i e hi
      · intro s hs'
        apply hs
        simp only [List.mem_cons] at hs' ⊢
        tauto
      · rw [List.pairwise_cons]
        exact ⟨fun s h' => hp'.1 s (by simp [h']), hp'.2.2⟩
    · apply ih _ _ h
      · intro s hs'
        apply hs
        simp only [List.mem_cons] at hs' ⊢
        tauto
      · exact hp.of_cons

theorem mergePair_inv {evs : List (Event Nat K)} {st : MState K} (h : Inv evs st) (n1 n2 : Nat) :
    Inv evs (mergePair evs st n1 n2) := by
  have hm := fun s => @mem_pairSnaps K _ _ _ evs st n1 n2 s
  have hso := pairSnaps_sorted evs st n1 n2
  unfold mergePair
  cases hl : pairSnaps evs st n1 n2 with
  | nil => exact h
  | cons ev1 rest =>
    rw [hl] at hso
    refine run_inv evs n1 n2 rest ev1 st h ?_ hso
    intro s hs
    rw [← hl, hm s] at hs
    obtain ⟨e, h1, h2, h3, h4⟩ := hs
    obtain ⟨g1, g2⟩ := h s.id e h1
    refine ⟨e, h1, h2, h3, by rw [h3, h4]; exact g1, ?_⟩
    intro t ht ht'
    rw [active_of_pair h2]
    exact g2 t (h3 ▸ ht) (h4 ▸ ht')

theorem initState_ends {evs : List (Event Nat K)} {i : Nat} {e : Event Nat K} (h : evs[i]? = some e) :
    (initState evs).ends i = e.stop := by simp [initState, h]

theorem initState_inv {evs : List (Event Nat K)} (h : Lasting evs) : Inv evs (initState evs) := by
  intro i e hi
  have he : e ∈ evs := List.mem_of_getElem? hi
  rw [initState_ends hi]
  exact ⟨h e he, fun t h1 h2 => ⟨e, he, pair_self e, h1, h2⟩⟩

theorem fold_inv (evs : List (Event Nat K)) (l : List (Nat × Nat)) : ∀ st : MState K, Inv evs st →
    Inv evs (l.foldl (fun st p => mergePair evs st p.1 p.2) st) := by
  induction l with
  | nil => intro st h; exact h
  | cons p l ih => intro st h; exact ih _ (mergePair_inv h _ _)

theorem passState_inv (n : Nat) {evs : List (Event Nat K)} (h : Lasting evs) :
    Inv evs (passState n evs) := fold_inv _ _ _ (initState_inv h)

theorem mem_passTable {n : Nat} {evs : List (Event Nat K)} {f : Event Nat K} :
    f ∈ passTable n evs ↔ ∃ (i : Nat) (e : Event Nat K), evs[i]? = some e ∧
      (passState n evs).keep i = true ∧ f = { e with stop := (passState n evs).ends i } := by
  unfold passTable
  simp only [List.mem_map, List.mem_filter, Prod.exists, mem_zip]
  constructor
  · rintro ⟨e, i, ⟨h1, h2⟩, rfl⟩; exact ⟨i, e, h1, h2, rfl⟩
  · rintro ⟨i, e, h1, h2, rfl⟩; exact ⟨e, i, ⟨h1, h2⟩, rfl⟩

theorem passTable_lasting (n : Nat) {evs : List (Event Nat K)} (h : Lasting evs) :
    Lasting (passTable n evs) := by
  intro f hf
  obtain ⟨i, e, h1, h2, rfl⟩ := mem_passTable.1 hf
  exact (passState_inv n h i e h1).1

theorem passTable_inRange (n : Nat) {evs : List (Event Nat K)} (h : InRange n evs) :
    InRange n (passTable n evs) := by
  intro f hf
  obtain ⟨i, e, h1, h2, rfl⟩ := mem_passTable.1 hf
  exact h e (List.mem_of_getElem? h1)

theorem passTable_noLoops (n : Nat) {evs : List (Event Nat K)} (h : NoSelfLoops evs) :
    NoSelfLoops (passTable n evs) := by
  intro f hf
  obtain ⟨i, e, h1, h2, rfl⟩ := mem_passTable.1 hf
  exact h e (List.mem_of_getElem? h1)

theorem passTable_active (n : Nat) {evs : List (Event Nat K)} (h : Lasting evs) {t : K} {i j : Nat}
    (ha : Active (passTable n evs) t i j) : Active evs t i j := by
  obtain ⟨f, hf, hp, h1, h2⟩ := ha
  obtain ⟨k, e, h3, h4, rfl⟩ := mem_passTable.1 hf
  have hp' : e.Pair i j := hp
  rw [active_of_pair hp']
  exact (passState_inv n h k e h3).2 t h1 h2

/-- What identifies an event apart from its end. -/
def head3 (e : Event Nat K) : Nat × Nat × K := (e.src, e.tgt, e.start)

theorem passTable_heads (n : Nat) (evs : List (Event Nat K)) :
    ((passTable n evs).map head3).Sublist (evs.map head3) := by
  unfold passTable
  rw [List.map_map]
  have h1 : (head3 ∘ fun p : Event Nat K × Nat => { p.1 with stop := (passState n evs).ends p.2 })
      = head3 ∘ Prod.fst := rfl
  rw [h1]
  have h2 : (evs.zipIdx.map (head3 ∘ Prod.fst)) = evs.map head3 := by
    rw [← List.map_map, List.zipIdx_map_fst]
  rw [← h2]
  exact List.filter_sublist.map _

theorem passTable_length (n : Nat) (evs : List (Event Nat K)) :
    (passTable n evs).length + passMerged n evs = evs.length := by
  unfold passTable passMerged
  simp only [List.length_map]
  have := List.length_eq_length_filter_add (l := evs.zipIdx) fun p => (passState n evs).keep p.2
  rw [List.length_zipIdx] at this
  omega

/-! ### Every pair with an event is visited -/

theorem foldl_min_le (l : List K) : ∀ a : K, l.foldl min a ≤ a ∧ ∀ x ∈ l, l.foldl min a ≤ x := by
  induction l with
  | nil => intro a; simp
  | cons b l ih =>
    intro a
    obtain ⟨h1, h2⟩ := ih (min a b)
    simp only [List.foldl_cons, List.mem_cons, forall_eq_or_imp]
    exact ⟨h1.trans (min_le_left _ _), h1.trans (min_le_right _ _), h2⟩

theorem le_foldl_max (l : List K) : ∀ a : K, a ≤ l.foldl max a ∧ ∀ x ∈ l, x ≤ l.foldl max a := by
  induction l with
  | nil => intro a; simp
  | cons b l ih =>
    intro a
    obtain ⟨h1, h2⟩ := ih (max a b)
    simp only [List.foldl_cons, List.mem_cons, forall_eq_or_imp]
    exact ⟨(le_max_left _ _).trans h1, (le_max_right _ _).trans h1, h2⟩

theorem startTime_le {evs : List (Event Nat K)} {e : Event Nat K} (h : e ∈ evs) : startTime evs ≤ e.start := by
  cases evs with
  | nil => cases h
  | cons a r =>
    have := foldl_min_le (r.map Event.start) a.start
    rcases List.mem_cons.1 h with rfl | h
    · exact this.1
    · exact this.2 _ (List.mem_map_of_mem h)

theorem le_endTime {evs : List (Event Nat K)} {e : Event Nat K} (h : e ∈ evs) : e.stop ≤ endTime evs := by
  cases evs with
  | nil => cases h
  | cons a r =>
    have := le_foldl_max (r.map Event.stop) a.stop
    rcases List.mem_cons.1 h with rfl | h
    · exact this.1
    · exact this.2 _ (List.mem_map_of_mem h)

theorem sum_nonneg_list (l : List K) (h : ∀ x ∈ l, 0 ≤ x) : 0 ≤ l.sum := by
  induction l with
  | nil => simp
  | cons a l ih =>
    rw [List.sum_cons]
    exact add_nonneg (h a (by simp)) (ih fun x hx => h x (by simp [hx]))

theorem le_sum_list (l : List K) (h : ∀ x ∈ l, 0 ≤ x) (a : K) (ha : a ∈ l) : a ≤ l.sum := by
  induction l with
  | nil => cases ha
  | cons b l ih =>
    rw [List.sum_cons]
    have h1 := h b (by simp)
    have h2 := sum_nonneg_list l fun x hx => h x (by simp [hx])
    rcases List.mem_cons.1 ha with rfl | ha
    · linarith
    · have := ih (fun x hx => h x (by simp [hx])) ha
      linarith

theorem staticCoo_nonneg {evs : List (Event Nat K)} (h : Lasting evs) (a b : K) (hab : a ≤ b) (i j : Nat) :
    0 ≤ staticCoo evs a b i j := by
  unfold staticCoo
  apply sum_nonneg_list
  intro x hx
  simp only [List.mem_map, List.mem_filter, decide_eq_true_eq] at hx
  obtain ⟨e, ⟨⟨he, h1, h2⟩, _⟩, rfl⟩ := hx
  have := h e he
  rw [sub_nonneg]
  exact max_le (le_min this.le h1.le) (le_min h2.le hab)

theorem staticCoo_pos {evs : List (Event Nat K)} (h : Lasting evs) {e : Event Nat K} (he : e ∈ evs) :
    0 < staticCoo evs (startTime evs) (endTime evs) e.src e.tgt := by
  have h1 := startTime_le he
  have h2 := le_endTime he
  have h3 := h e he
  have hab : startTime evs ≤ endTime evs := h1.trans (h3.le.trans h2)
  have hmem : (min e.stop (endTime evs) - max e.start (startTime evs)) ∈
      (((evs.filter fun e => e.start < endTime evs ∧ startTime evs < e.stop).filter
        fun f => f.src = e.src ∧ f.tgt = e.tgt).map
        fun e => min e.stop (endTime evs) - max e.start (startTime evs)) := by
    refine List.mem_map.2 ⟨e, ?_, rfl⟩
    simp only [List.mem_filter, decide_eq_true_eq]
    exact ⟨⟨he, lt_of_lt_of_le h3 h2, lt_of_le_of_lt h1 h3⟩, by simp⟩
  refine lt_of_lt_of_le ?_ (le_sum_list _ ?_ _ hmem)
  · rw [min_eq_left h2, max_eq_left h1]; exact sub_pos.2 h3
  · intro x hx
    simp only [List.mem_map, List.mem_filter, decide_eq_true_eq] at hx
    obtain ⟨f, ⟨⟨hf, g1, g2⟩, _⟩, rfl⟩ := hx
    have := h f hf
    rw [sub_nonneg]
    exact max_le (le_min this.le g1.le) (le_min g2.le hab)

theorem mem_visits {n : Nat} {evs : List (Event Nat K)} (hr : InRange n evs) (h : Lasting evs)
    {e : Event Nat K} (he : e ∈ evs) : (e.src, e.tgt) ∈ visits n evs := by
  have hab : startTime evs ≤ endTime evs := (startTime_le he).trans ((h e he).le.trans (le_endTime he))
  unfold visits
  simp only [List.mem_flatMap, List.mem_range, List.mem_map, List.mem_filter, decide_eq_true_eq,
    Prod.mk.injEq]
  refine ⟨e.src, (hr e he).1, e.tgt, ⟨(hr e he).2, ?_⟩, rfl, rfl⟩
  unfold staticAdjacency
  have := staticCoo_pos h he
  have := staticCoo_nonneg h _ _ hab e.tgt e.src
  linarith

/-! ### A pass that merges nothing -/

theorem fold_keep_mono (evs : List (Event Nat K)) (l : List (Nat × Nat)) : ∀ (st : MState K) (i : Nat),
    (l.foldl (fun st p => mergePair evs st p.1 p.2) st).keep i = true → st.keep i = true := by
  induction l with
  | nil => intro st i h; exact h
  | cons p l ih =>
    intro st i h
    have := ih (mergePair evs st p.1 p.2) _ h
    unfold mergePair at this
    split at this
    · exact this
    · exact run_keep_mono _ _ _ _ this

/-- The events of a pair, in time order, follow each other without overlap. -/
def PairChain (evs : List (Event Nat K)) (st : MState K) (n1 n2 : Nat) : Prop :=
  (pairSnaps evs st n1 n2).IsChain fun a b => a.stop ≤ b.start

theorem fold_none (evs : List (Event Nat K)) (l : List (Nat × Nat)) : ∀ st : MState K,
    (∀ i < evs.length, (l.foldl (fun st p => mergePair evs st p.1 p.2) st).keep i = true) →
    l.foldl (fun st p => mergePair evs st p.1 p.2) st = st ∧ ∀ p ∈ l, PairChain evs st p.1 p.2 := by
  induction l with
  | nil => intro st _; exact ⟨rfl, by simp⟩
  | cons p l ih =>
    intro st h
    have hstep : mergePair evs st p.1 p.2 = st ∧ PairChain evs st p.1 p.2 := by
      have hk := fun i hi => fold_keep_mono evs l (mergePair evs st p.1 p.2) i (h i hi)
      have hm := fun s => @mem_pairSnaps K _ _ _ evs st p.1 p.2 s
      unfold PairChain
      unfold mergePair at hk ⊢
      cases hl : pairSnaps evs st p.1 p.2 with
      | nil => exact ⟨rfl, by simp⟩
      | cons ev1 rest =>
        simp only [hl] at hk
        apply run_none
        intro s hs
        apply hk
        have hs' : s ∈ pairSnaps evs st p.1 p.2 := by rw [hl]; simp [hs]
        obtain ⟨e, he, _⟩ := (hm s).1 hs'
        exact (List.getElem?_eq_some_iff.1 he).1
    simp only [List.foldl_cons] at h ⊢
    rw [hstep.1] at h ⊢
    obtain ⟨h1, h2⟩ := ih st h
    refine ⟨h1, ?_⟩
    intro q hq
    rcases List.mem_cons.1 hq with rfl | hq
    · exact hstep.2
    · exact h2 q hq

theorem fold_chain (evs : List (Event Nat K)) (st : MState K) (l : List (Nat × Nat))
    (h : ∀ p ∈ l, PairChain evs st p.1 p.2) :
    l.foldl (fun st p => mergePair evs st p.1 p.2) st = st := by
  induction l with
  | nil => rfl
  | cons p l ih =>
    have h0 := h p (by simp)
    have : mergePair evs st p.1 p.2 = st := by
      unfold PairChain at h0
      unfold mergePair
      cases hl : pairSnaps evs st p.1 p.2 with
      | nil => rfl
      | cons ev1 rest => rw [hl] at h0; exact run_chain _ _ _ h0
    simp only [List.foldl_cons, this]
    exact ih fun q hq => h q (by simp [hq])

theorem passMerged_zero {n : Nat} {evs : List (Event Nat K)} :
    passMerged n evs = 0 ↔ ∀ i < evs.length, (passState n evs).keep i = true := by
  unfold passMerged
  simp only [List.length_eq_zero_iff, List.filter_eq_nil_iff, Prod.forall, mem_zip]
  constructor
  · intro h i hi
    have := h evs[i] i (by simp [hi])
    simpa using this
  · intro h e i hi
    have := h i (List.getElem?_eq_some_iff.1 hi).1
    simp [this]

theorem passTable_of_init {n : Nat} {evs : List (Event Nat K)} (h : passState n evs = initState evs) :
    passTable n evs = evs := by
  unfold passTable
  simp only [h]
  have h1 : (evs.zipIdx.filter fun p => (initState evs).keep p.2) = evs.zipIdx := by
    apply List.filter_eq_self.2; intro p _; rfl
  rw [h1]
  apply List.ext_getElem?
  intro i
  rw [List.getElem?_map, List.getElem?_zipIdx]
  cases hi : evs[i]? with
  | none => rfl
  | some e =>
    simp only [Option.map_some, Nat.zero_add, Option.some.injEq]
    rw [initState_ends hi]

theorem passMerged_of_init {n : Nat} {evs : List (Event Nat K)} (h : passState n evs = initState evs) :
    passMerged n evs = 0 := by
  rw [passMerged_zero, h]; intro i _; rfl

theorem pass_none {n : Nat} {evs : List (Event Nat K)} (h : passMerged n evs = 0) :
    passTable n evs = evs ∧ ∀ p ∈ visits n evs, PairChain evs (initState evs) p.1 p.2 := by
  obtain ⟨h1, h2⟩ := fold_none evs (visits n evs) (initState evs) (passMerged_zero.1 h)
  exact ⟨passTable_of_init h1, h2⟩

theorem mergeLoop_some {n : Nat} (P : List (Event Nat K) → Prop)
    (hP : ∀ evs, P evs → P (passTable n evs)) : ∀ (fuel : Nat) (evs r : List (Event Nat K)), P evs →
    mergeLoop n fuel evs = some r → P r ∧ passMerged n r = 0 := by
  intro fuel
  induction fuel with
  | zero => intro evs r _ h; simp [mergeLoop] at h
  | succ fuel ih =>
    intro evs r hp h
    unfold mergeLoop at h
    split at h
    · rename_i h0
      cases h
      rw [(pass_none h0).1]
      exact ⟨hp, h0⟩
    · exact ih _ _ (hP _ hp) h

theorem mergeLoop_total (n : Nat) : ∀ (fuel : Nat) (evs : List (Event Nat K)), evs.length < fuel →
    ∃ r, mergeLoop n fuel evs = some r := by
  intro fuel
  induction fuel with
  | zero => intro evs h; omega
  | succ fuel ih =>
    intro evs h
    unfold mergeLoop
    split
    · exact ⟨_, rfl⟩
    · rename_i h0
      apply ih
      have := passTable_length n evs
      omega

/-- More passes than needed change nothing. -/
theorem mergeLoop_fuel (n : Nat) : ∀ (fuel : Nat) (evs r : List (Event Nat K)),
    mergeLoop n fuel evs = some r → ∀ m, fuel ≤ m → mergeLoop n m evs = some r := by
  intro fuel
  induction fuel with
  | zero => intro evs r h; simp [mergeLoop] at h
  | succ fuel ih =>
    intro evs r h m hm
    obtain ⟨m, rfl⟩ : ∃ k, m = k + 1 := ⟨m - 1, by omega⟩
    unfold mergeLoop at h ⊢
    split at h
    · rename_i h0; rw [if_pos h0]; exact h
    · rename_i h0; rw [if_neg h0]; exact ih _ _ h _ (by omega)

/-- Lasting events in a chain share no time, also when they are not neighbours. -/
theorem chain_pairwise {l : List (Snap K)} (hl : ∀ s ∈ l, s.start ≤ s.stop)
    (h : l.IsChain fun a b => a.stop ≤ b.start) : l.Pairwise fun a b => a.stop ≤ b.start := by
  induction l with
  | nil => exact List.Pairwise.nil
  | cons a l ih =>
    cases l with
    | nil => simp
    | cons b l =>
      rw [List.isChain_cons_cons] at h
      have ih' := ih (fun s hs => hl s (by simp [hs])) h.2
      rw [List.pairwise_cons]
      refine ⟨?_, ih'⟩
      intro c hc
      rcases List.mem_cons.1 hc with rfl | hc
      · exact h.1
      · exact h.1.trans ((hl b (by simp)).trans ((List.pairwise_cons.1 ih').1 c hc))

theorem noOverlaps_of_chains {evs : List (Event Nat K)} (h : Lasting evs)
    (hc : ∀ e ∈ evs, PairChain evs (initState evs) e.src e.tgt) : NoOverlaps evs := by
  unfold NoOverlaps
  rw [List.pairwise_iff_getElem]
  intro i j hi hj hij hp
  have hs := hc evs[j] (List.getElem_mem hj)
  have hpw := chain_pairwise (l := pairSnaps evs (initState evs) evs[j].src evs[j].tgt) ?_ hs
  · have hsi : (⟨i, evs[i].start, evs[i].stop⟩ : Snap K) ∈
        pairSnaps evs (initState evs) evs[j].src evs[j].tgt :=
      mem_pairSnaps.2 ⟨evs[i], by simp [hi], hp, rfl, by rw [initState_ends (e := evs[i]) (by simp [hi])]⟩
    have hsj : (⟨j, evs[j].start, evs[j].stop⟩ : Snap K) ∈
        pairSnaps evs (initState evs) evs[j].src evs[j].tgt :=
      mem_pairSnaps.2 ⟨evs[j], by simp [hj], pair_self _, rfl,
        by rw [initState_ends (e := evs[j]) (by simp [hj])]⟩
    obtain ⟨a, ha, hae⟩ := List.mem_iff_getElem.1 hsi
    obtain ⟨b, hb, hbe⟩ := List.mem_iff_getElem.1 hsj
    rw [List.pairwise_iff_getElem] at hpw
    rcases lt_trichotomy a b with hab | hab | hab
    · left
      have := hpw a b ha hb hab
      rw [hae, hbe] at this
      exact this
    · subst hab
      rw [hae] at hbe
      simp only [Snap.mk.injEq] at hbe
      omega
    · right
      have := hpw b a hb ha hab
      rw [hae, hbe] at this
      exact this
  · intro s hs
    obtain ⟨e, h1, h2, h3, h4⟩ := mem_pairSnaps.1 hs
    rw [h4, h3, initState_ends h1]
    exact (h e (List.mem_of_getElem? h1)).le

theorem noOverlaps_getElem {evs : List (Event Nat K)} (h : NoOverlaps evs) {i j : Nat} {e f : Event Nat K}
    (hi : evs[i]? = some e) (hj : evs[j]? = some f) (hij : i ≠ j) (hp : e.Pair f.src f.tgt) :
    e.stop ≤ f.start ∨ f.stop ≤ e.start := by
  obtain ⟨hi', rfl⟩ := List.getElem?_eq_some_iff.1 hi
  obtain ⟨hj', rfl⟩ := List.getElem?_eq_some_iff.1 hj
  unfold NoOverlaps at h
  rw [List.pairwise_iff_getElem] at h
  rcases Nat.lt_or_gt_of_ne hij with hlt | hlt
  · exact h i j hi' hj' hlt hp
  · have := h j i hj' hi' hlt (pair_of (pair_self _) (by
      unfold Event.Pair at hp ⊢; rcases hp with ⟨a, b⟩ | ⟨a, b⟩ <;> simp [a, b]))
    tauto

theorem chains_of_noOverlaps {evs : List (Event Nat K)} (h : Lasting evs) (ho : NoOverlaps evs)
    (n1 n2 : Nat) : PairChain evs (initState evs) n1 n2 := by
  unfold PairChain
  apply List.Pairwise.isChain
  have h1 := pairSnaps_sorted evs (initState evs) n1 n2
  have h2 := pairSnaps_nodup evs (initState evs) n1 n2
  rw [List.nodup_iff_pairwise_ne, List.pairwise_map] at h2
  refine List.Pairwise.imp_of_mem ?_ (h1.and h2)
  intro a b ha hb hab
  obtain ⟨e, a1, a2, a3, a4⟩ := mem_pairSnaps.1 ha
  obtain ⟨f, b1, b2, b3, b4⟩ := mem_pairSnaps.1 hb
  rw [initState_ends a1] at a4
  rw [a4, b3]
  rcases noOverlaps_getElem ho a1 b1 hab.2 (pair_of a2 b2) with hh | hh
  · exact hh
  · have := h f (List.mem_of_getElem? b1)
    have h3 := hab.1
    rw [a3, b3] at h3
    exact absurd (lt_of_lt_of_le this hh) (not_lt.2 h3)

theorem pass_of_noOverlaps (n : Nat) {evs : List (Event Nat K)} (h : Lasting evs) (ho : NoOverlaps evs) :
    passState n evs = initState evs :=
  fold_chain _ _ _ fun p _ => chains_of_noOverlaps h ho p.1 p.2

end Verif.Merge
