import Verif.Helpers.Model
import Verif.Autocov.Lemmas

/-!
# Lemmas on the outer product
-/

namespace Verif.Helpers

set_option linter.unusedSectionVars false

open Verif.Csr Verif.Autocov

variable {K : Type} [Field K] [LinearOrder K] [IsStrictOrderedRing K]

theorem cumsum_eq (s : Nat) (l : List Nat) :
    cumsum s l = (List.range (l.length + 1)).map fun i => s + (l.take i).sum := by
  induction l generalizing s with
  | nil => simp [cumsum]
  | cons x l ih =>
    rw [cumsum, ih, List.length_cons, List.range_succ_eq_map (n := l.length + 1), List.map_cons,
      List.map_map]
    simp [Function.comp_def, Nat.add_assoc]

theorem cumsum_ofRows (rows : List (List (Nat × K))) :
    cumsum 0 (rows.map List.length) = (Build.ofRows rows).indptr := by
  rw [cumsum_eq, ofRows_indptr, List.length_map]
  apply List.map_congr_left
  intro i _
  rw [Nat.zero_add, List.length_flatten, ← List.map_take]

/-- The rows that occur take their lengths in turn. -/
theorem numPerRow_triu (ix : List Nat) (g : Nat → Nat) (rs : List Nat) :
    numPerRow true ix ((rs.filter fun r => decide (r ∈ ix)).map g) rs =
      rs.map fun r => if r ∈ ix then g r else 0 := by
  induction rs with
  | nil => rfl
  | cons r rs ih =>
    rw [List.map_cons, ← ih]
    by_cases hr : r ∈ ix
    · rw [List.filter_cons_of_pos (by simpa using hr), List.map_cons, numPerRow, if_pos hr,
        if_pos rfl, if_pos hr]
    · rw [List.filter_cons_of_neg (by simpa using hr), numPerRow.eq_def]
      simp only [if_neg hr]

theorem numPerRow_all (ix lens rs : List Nat) :
    numPerRow false ix lens rs = rs.map fun r => if r ∈ ix then ix.length else 0 := by
  induction rs with
  | nil => rfl
  | cons r rs ih =>
    rw [List.map_cons, ← ih]
    by_cases hr : r ∈ ix
    · rw [numPerRow.eq_def]
      simp only [if_pos hr, Bool.false_eq_true, if_false]
    · rw [numPerRow.eq_def]
      simp only [if_neg hr]

/-- A list sorted by strictly increasing columns. -/
def Strict (s : List (Nat × K)) : Prop := (s.map Prod.fst).Pairwise (· < ·)

/-- The row of the outer product that belongs to the stored entry `e`. -/
def oRow (mkl triu : Bool) (s : List (Nat × K)) (e : Nat × K) : List (Nat × K) :=
  if triu then (s.filter fun f => decide (e.1 ≤ f.1)).map fun f => (f.1, e.2 * f.2)
  else s.map fun f => (f.1, if mkl && decide (f.1 < e.1) then 0 else e.2 * f.2)

/-- Row `r` of the outer product. -/
def rowAt (mkl triu : Bool) (s : List (Nat × K)) (r : Nat) : List (Nat × K) :=
  (s.filter fun e => e.1 == r).flatMap (oRow mkl triu s)

theorem sortRow_strict {n : Nat} {s : List (Nat × K)} (hs : Strict s) (hb : ∀ e ∈ s, e.1 < n) :
    sortRow n s = s := by
  unfold Strict at hs
  rw [List.pairwise_map] at hs
  have h1 := sortRow_sorted n s
  rw [List.pairwise_map] at h1
  have hp := perm_sortRow n s hb
  refine List.Perm.eq_of_pairwise (le := fun a b : Nat × K => a.1 < b.1) ?_ ?_ hs hp
  · intro a b _ _ h2 h3
    exact absurd h2 (by omega)
  · have hnd : ((sortRow n s).map Prod.fst).Nodup := by
      rw [(hp.map Prod.fst).nodup_iff]
      exact (List.pairwise_map.2 hs).imp (fun h => by omega)
    rw [List.Nodup, List.pairwise_map] at hnd
    exact (h1.and hnd).imp (fun h => by omega)

theorem flatten_rowAt (mkl triu : Bool) {n : Nat} {s : List (Nat × K)} (hs : Strict s)
    (hb : ∀ e ∈ s, e.1 < n) :
    ((List.range n).map (rowAt mkl triu s)).flatten = s.flatMap (oRow mkl triu s) := by
  rw [← List.flatMap_def]
  unfold rowAt
  rw [← List.flatMap_assoc]
  congr 1
  exact sortRow_strict hs hb

theorem range_getD (s : List (Nat × K)) :
    s = (List.range s.length).map fun a => s.getD a (0, 0) := by
  apply List.ext_getElem
  · simp
  · intro i h1 h2
    rw [List.getElem_map, List.getElem_range, List.getD_eq_getElem?_getD,
      List.getElem?_eq_getElem h1]
    rfl

theorem strict_le {s : List (Nat × K)} (hs : Strict s) {a b : Nat} (ha : a < s.length)
    (hb : b < s.length) : (s.getD a (0, 0)).1 ≤ (s.getD b (0, 0)).1 ↔ a ≤ b := by
  unfold Strict at hs
  rw [List.pairwise_map, List.pairwise_iff_getElem] at hs
  rw [List.getD_eq_getElem?_getD, List.getD_eq_getElem?_getD, List.getElem?_eq_getElem ha,
    List.getElem?_eq_getElem hb]
  simp only [Option.getD_some]
  rcases Nat.lt_trichotomy a b with h | h | h
  · have := hs a b ha hb h
    omega
  · subst h; simp
  · have := hs b a hb ha h
    omega

theorem snd_getD (s : List (Nat × K)) (a : Nat) :
    (s.map Prod.snd).getD a 0 = (s.getD a (0, 0)).2 := by
  rw [List.getD_eq_getElem?_getD, List.getD_eq_getElem?_getD, List.getElem?_map]
  cases s[a]? <;> rfl

/-- The values computed are those of the rows. -/
theorem data_eq (mkl triu : Bool) {s : List (Nat × K)} (hs : Strict s) :
    (if triu then outerUpper (s.map Prod.snd) else outerAll mkl (s.map Prod.snd)) =
      (s.flatMap (oRow mkl triu s)).map Prod.snd := by
  have key : ∀ (g : Nat × K → List (Nat × K)), (s.flatMap g).map Prod.snd =
      (List.range s.length).flatMap fun a => (g (s.getD a (0, 0))).map Prod.snd := by
    intro g
    conv_lhs => rw [range_getD s]
    rw [List.map_flatMap, List.flatMap_map]
  rw [key]
  cases triu with
  | true =>
    rw [if_pos rfl, outerUpper, List.length_map]
    apply List.flatMap_congr
    intro a ha
    have ha' := List.mem_range.1 ha
    unfold oRow
    rw [if_pos rfl, List.map_map]
    conv_rhs => rw [range_getD s]
    rw [List.filter_map, List.map_map]
    have hf : (List.range s.length).filter ((fun f : Nat × K => decide ((s.getD a (0, 0)).1 ≤ f.1)) ∘
        fun a => s.getD a (0, 0)) = (List.range s.length).filter fun b => decide (a ≤ b) := by
      apply List.filter_congr
      intro b hb
      simp only [Function.comp]
      rw [decide_eq_decide]
      exact strict_le hs ha' (List.mem_range.1 hb)
    rw [← range_getD s, hf]
    apply List.map_congr_left
    intro b _
    simp only [Function.comp, snd_getD]
  | false =>
    rw [if_neg (by simp), outerAll, List.length_map]
    apply List.flatMap_congr
    intro a ha
    have ha' := List.mem_range.1 ha
    unfold oRow
    rw [if_neg (by simp), List.map_map]
    conv_rhs => rw [range_getD s]
    rw [List.map_map]
    apply List.map_congr_left
    intro b hb
    simp only [Function.comp, snd_getD]
    rw [← range_getD s]
    have : decide (b < a) = decide ((s.getD b (0, 0)).1 < (s.getD a (0, 0)).1) := by
      rw [decide_eq_decide]
      have := strict_le hs ha' (List.mem_range.1 hb)
      omega
    rw [this]

theorem indices_eq (mkl triu : Bool) (s : List (Nat × K)) :
    (indexLists triu (s.map Prod.fst)).flatten = (s.flatMap (oRow mkl triu s)).map Prod.fst := by
  unfold indexLists
  rw [List.map_flatMap, List.map_map, ← List.flatMap_def]
  apply List.flatMap_congr
  intro e _
  unfold oRow
  cases triu with
  | true =>
    simp only [Function.comp, if_true, List.map_map]
    rw [List.filter_map]
    rfl
  | false =>
    simp only [Function.comp, Bool.false_eq_true, if_false, List.map_map]
    rfl

theorem filter_key {s : List (Nat × K)} (hs : Strict s) (r : Nat) :
    (∃ e ∈ s, e.1 = r ∧ (s.filter fun e => e.1 == r) = [e]) ∨
      (r ∉ s.map Prod.fst ∧ (s.filter fun e => e.1 == r) = []) := by
  induction s with
  | nil => right; simp
  | cons f s ih =>
    unfold Strict at hs
    rw [List.map_cons, List.pairwise_cons] at hs
    by_cases hf : f.1 = r
    · left
      refine ⟨f, List.mem_cons_self .., hf, ?_⟩
      rw [List.filter_cons_of_pos (by simpa using hf)]
      congr 1
      rw [List.filter_eq_nil_iff]
      intro a ha
      have := hs.1 a.1 (List.mem_map_of_mem ha)
      simp only [beq_iff_eq]
      omega
    · rw [List.filter_cons_of_neg (by simpa using hf)]
      rcases ih hs.2 with ⟨e, he, h1, h2⟩ | ⟨h1, h2⟩
      · exact Or.inl ⟨e, List.mem_cons_of_mem _ he, h1, h2⟩
      · right
        refine ⟨?_, h2⟩
        rw [List.map_cons, List.mem_cons, not_or]
        exact ⟨fun h => hf h.symm, h1⟩

theorem filter_range_ix {n : Nat} {ix : List Nat} (hs : ix.Pairwise (· < ·))
    (hb : ∀ c ∈ ix, c < n) : ((List.range n).filter fun r => decide (r ∈ ix)) = ix := by
  refine List.Perm.eq_of_pairwise (le := fun a b : Nat => a < b) ?_
    (List.Pairwise.filter _ List.pairwise_lt_range) hs ?_
  · intro a b _ _ h2 h3
    exact absurd h2 (by omega)
  · rw [List.perm_ext_iff_of_nodup (List.Nodup.filter _ List.nodup_range)
      (hs.imp (fun h => by omega))]
    intro a
    simp only [List.mem_filter, List.mem_range, decide_eq_true_eq]
    exact ⟨fun h => h.2, fun h => ⟨hb a h, h⟩⟩

theorem lengths_eq (mkl triu : Bool) {n : Nat} {s : List (Nat × K)} (hs : Strict s)
    (hb : ∀ e ∈ s, e.1 < n) :
    numPerRow triu (s.map Prod.fst) ((indexLists triu (s.map Prod.fst)).map List.length)
      (List.range n) = ((List.range n).map (rowAt mkl triu s)).map List.length := by
  have hb' : ∀ c ∈ s.map Prod.fst, c < n := by
    intro c hc
    obtain ⟨e, he, rfl⟩ := List.mem_map.1 hc
    exact hb e he
  cases triu with
  | true =>
    have h1 : (indexLists true (s.map Prod.fst)).map List.length =
        (((List.range n).filter fun r => decide (r ∈ s.map Prod.fst)).map fun r =>
          ((s.map Prod.fst).filter fun c => decide (r ≤ c)).length) := by
      rw [filter_range_ix hs hb']
      unfold indexLists
      rw [List.map_map]
      rfl
    rw [h1, numPerRow_triu, List.map_map]
    apply List.map_congr_left
    intro r _
    simp only [Function.comp, rowAt]
    rcases filter_key hs r with ⟨e, he, rfl, h3⟩ | ⟨h2, h3⟩
    · rw [h3, if_pos (List.mem_map_of_mem he)]
      simp [oRow, List.filter_map, Function.comp_def]
    · rw [h3, if_neg h2]
      rfl
  | false =>
    rw [numPerRow_all, List.map_map]
    apply List.map_congr_left
    intro r _
    simp only [Function.comp, rowAt]
    rcases filter_key hs r with ⟨e, he, rfl, h3⟩ | ⟨h2, h3⟩
    · rw [h3, if_pos (List.mem_map_of_mem he)]
      simp [oRow]
    · rw [h3, if_neg h2]
      rfl

theorem sumAt_upper (s : List (Nat × K)) (r : Nat) (x : K) (c : Nat) :
    sumAt ((s.filter fun f => decide (r ≤ f.1)).map fun f => (f.1, x * f.2)) c =
      if r ≤ c then x * sumAt s c else 0 := by
  induction s with
  | nil => simp
  | cons f s ih =>
    by_cases hf : r ≤ f.1
    · rw [List.filter_cons_of_pos (by simpa using hf), List.map_cons, sumAt_cons, ih, sumAt_cons]
      dsimp only
      by_cases hc : f.1 = c
      · rw [if_pos hc, if_pos hc, if_pos (hc ▸ hf), if_pos (hc ▸ hf), mul_add]
      · rw [if_neg hc, if_neg hc, zero_add, zero_add]
    · rw [List.filter_cons_of_neg (by simpa using hf), ih, sumAt_cons]
      by_cases hc : f.1 = c
      · rw [if_neg (hc ▸ hf), if_neg (hc ▸ hf)]
      · rw [if_neg hc, zero_add]

theorem sumAt_all (mkl : Bool) (s : List (Nat × K)) (r : Nat) (x : K) (c : Nat) :
    sumAt (s.map fun f => (f.1, if mkl && decide (f.1 < r) then 0 else x * f.2)) c =
      if mkl && decide (c < r) then 0 else x * sumAt s c := by
  induction s with
  | nil => simp
  | cons f s ih =>
    rw [List.map_cons, sumAt_cons, ih, sumAt_cons]
    dsimp only
    by_cases hc : f.1 = c
    · rw [hc, if_pos rfl, if_pos rfl]
      split
      · rw [add_zero]
      · rw [mul_add]
    · rw [if_neg hc, if_neg hc, zero_add, zero_add]

theorem sumAt_rowAt (mkl triu : Bool) (s : List (Nat × K)) (r c : Nat) :
    sumAt (rowAt mkl triu s r) c =
      if (triu || mkl) = true ∧ c < r then 0 else sumAt s r * sumAt s c := by
  unfold rowAt
  rw [sumAt_flatMap]
  have h1 : (s.filter fun e => e.1 == r).map (fun e => sumAt (oRow mkl triu s e) c) =
      (s.filter fun e => e.1 == r).map
        fun e => if (triu || mkl) = true ∧ c < r then 0 else e.2 * sumAt s c := by
    apply List.map_congr_left
    intro e he
    have her : e.1 = r := by simpa using (List.mem_filter.1 he).2
    unfold oRow
    cases triu with
    | true =>
      rw [if_pos rfl, sumAt_upper, her]
      by_cases h : r ≤ c
      · rw [if_pos h, if_neg (by rintro ⟨_, h'⟩; omega)]
      · rw [if_neg h, if_pos ⟨rfl, by omega⟩]
    | false =>
      rw [if_neg (by simp), sumAt_all, her]
      cases mkl <;> simp
  rw [h1]
  by_cases h : (triu || mkl) = true ∧ c < r
  · simp only [if_pos h]
    simp
  · simp only [if_neg h]
    rw [List.sum_map_mul_right]
    rfl

end Verif.Helpers
