import Verif.FloatFlow.Near
import Verif.Flow.Props

/-!
# The steps of the integral, one by one
-/

set_option linter.unusedSectionVars false

namespace Verif.FloatFlow

open Verif.Flow (massAt gram gsum wsum)
open Verif.Autocov (invOrOne)

variable {K : Type} [Field K] [LinearOrder K] [IsStrictOrderedRing K]
variable {u lo hi δ : K} {L : Nat} {o : Ops K} {n a : Nat} {p : Nat → K}

/-- A step of the flow as computed and the exact one. -/
structure StepRel (u δ : K) (n a : Nat) (e e' : Mat K × K) : Prop where
  mat : ∀ i < n, ∀ j < n, App (1 - u) a (e.1 i j) (e'.1 i j)
  matIn : ∀ i < n, ∀ j < n, In δ 1 1 (e'.1 i j)
  len : App (1 - u) 1 e.2 e'.2
  lenIn : In δ 1 1 e'.2
  pos : 0 < e'.2

theorem sum_diag (f : Nat → K) (g : Nat → K) {l : Nat} (hl : l < n) :
    ∑ k ∈ Finset.range n, f k * (if k = l then g k else 0) = f l * g l := by
  rw [Finset.sum_eq_single l]
  · rw [if_pos rfl]
  · intro k _ hk
    rw [if_neg hk, mul_zero]
  · intro h
    exact absurd (Finset.mem_range.2 hl) h

theorem sum_diag' (f : Nat → K) (g : Nat → K) {l : Nat} (hl : l < n) :
    ∑ k ∈ Finset.range n, (if l = k then g l else 0) * f k = g l * f l := by
  rw [Finset.sum_eq_single l]
  · rw [if_pos rfl]
  · intro k _ hk
    rw [if_neg (Ne.symm hk), zero_mul]
  · intro h
    exact absurd (Finset.mem_range.2 hl) h

theorem diag_app (hr : Rounds u lo hi o) (h : Room u lo hi δ L) {b : Nat} {d d' : Nat → K}
    (hd : ∀ i < n, App (1 - u) b (d i) (d' i)) (i j : Nat) (hi : i < n) :
    App (1 - u) b (diag o d i j) (if i = j then d' i else 0) := by
  unfold diag
  split
  · exact hd i hi
  · rw [hr.zero]
    exact App.refl h.r1 h.r0 le_rfl

theorem in_zero {c d : Nat} : In δ c d (0 : K) := Or.inl rfl

theorem in_diag {c d : Nat} {x : K} {P : Prop} [Decidable P] (h : In δ c d x) : In δ c d (if P then x else 0) := by
  split
  · exact h
  · exact in_zero

theorem mass_app (hr : Rounds u lo hi o) (h : Room u lo hi δ L) (hn : δ * n ≤ 1)
    (hp : ∀ i < n, 0 ≤ p i ∧ In δ 1 1 (p i)) {T T' : Mat K} (hT : ∀ i < n, ∀ j < n, App (1 - u) a (T i j) (T' i j))
    (hTI : ∀ i < n, ∀ j < n, In δ 1 1 (T' i j)) (hL : a + n ≤ L) {j : Nat} (hj : j < n) :
    App (1 - u) (a + n) (mass o n p T j) (if massAt n p T' j = 0 then 1 else massAt n p T' j) ∧
      0 < (if massAt n p T' j = 0 then 1 else massAt n p T' j) ∧
      In δ 2 3 (if massAt n p T' j = 0 then 1 else massAt n p T' j) := by
  have hterm : ∀ i < n, In δ 2 2 (p i * T' i j) := fun i hi =>
    In.mul h.d0 (hp i hi).1 (hT i hi j hj).right (hp i hi).2 (hTI i hi j hj)
  have hnn : ∀ i < n, 0 ≤ p i * T' i j := fun i hi => mul_nonneg (hp i hi).1 (hT i hi j hj).right
  have hsum : In δ 2 3 (∑ i ∈ Finset.range n, p i * T' i j) := In.sum h.d0 hn hnn hterm
  have h0 : 0 ≤ ∑ i ∈ Finset.range n, p i * T' i j := Finset.sum_nonneg fun i hi => hnn i (Finset.mem_range.1 hi)
  have key := dot_app hr h (m := 0) (k := a) (n := n) (A := p) (A' := p) (B := fun i => T i j) (B' := fun i => T' i j)
    (fun i hi => App.refl h.r1 h.r0 (hp i hi).1) (fun i hi => hT i hi j hj) (by omega)
    (fun i hi => (hterm i hi).mono h.d0 h.d1 (hnn i hi) (by omega) (by omega))
    (hsum.mono h.d0 h.d1 h0 (by omega) (by omega))
  rw [zero_add] at key
  have hm : massAt n p T' j = ∑ i ∈ Finset.range n, p i * T' i j := rfl
  unfold mass
  simp only
  rw [hr.isZero, hm]
  by_cases hz : ∑ i ∈ Finset.range n, p i * T' i j = 0
  · rw [if_pos hz, if_pos (by rw [decide_eq_true_eq]; exact (key.eq_zero_iff h.r0).2 hz), hr.one]
    exact ⟨App.refl h.r1 h.r0 zero_le_one, zero_lt_one, In.one h.d0 h.d1⟩
  · rw [if_neg hz, if_neg (by rw [decide_eq_true_eq]; exact fun e => hz ((key.eq_zero_iff h.r0).1 e))]
    exact ⟨key, lt_of_le_of_ne h0 (Ne.symm hz), hsum⟩

theorem inv_nonneg' {T' : Mat K} (hp : ∀ i < n, 0 ≤ p i) (hT : ∀ i < n, ∀ j < n, 0 ≤ T' i j) {k : Nat} (hk : k < n) :
    0 ≤ invOrOne (massAt n p T') k := by
  unfold invOrOne
  split
  · simp
  · exact one_div_nonneg.2 (Finset.sum_nonneg fun i hi =>
      mul_nonneg (hp i (Finset.mem_range.1 hi)) (hT i (Finset.mem_range.1 hi) k hk))

theorem step_app (hr : Rounds u lo hi o) (h : Room u lo hi δ L) (hn : δ * n ≤ 1)
    (hp : ∀ i < n, 0 ≤ p i ∧ In δ 1 1 (p i)) {e e' : Mat K × K} (he : StepRel u δ n a e e')
    (hL : 3 * a + 3 * n + 3 ≤ L) {i j : Nat} (hi' : i < n) (hj : j < n) :
    App (1 - u) (3 * a + 3 * n + 3) (stepMatrix o n p e.1 e.2 i j) (gram n p e'.1 i j * e'.2) ∧
      In δ 6 6 (gram n p e'.1 i j * e'.2) := by
  obtain ⟨T, dt⟩ := e
  obtain ⟨T', dt'⟩ := e'
  obtain ⟨hT, hTI, hdt, hdtI, hdt0⟩ := he
  simp only at hT hTI hdt hdtI hdt0 ⊢
  have hT0 : ∀ i < n, ∀ j < n, 0 ≤ T' i j := fun i hi j hj => (hT i hi j hj).right
  -- the inverse masses
  have hinv : ∀ k < n, App (1 - u) (a + n + 1) (o.div o.one (mass o n p T k)) (invOrOne (massAt n p T') k) ∧
      In δ 3 2 (invOrOne (massAt n p T') k) := by
    intro k hk
    obtain ⟨m1, m2, m3⟩ := mass_app hr h hn hp hT hTI (by omega) hk
    have hI := m3.inv h.d0
    exact ⟨inv_app hr h m1 m2 (by omega) (hI.mono h.d0 h.d1 (one_div_nonneg.2 m2.le) (by omega) (by omega)), hI⟩
  have hinv0 : ∀ k < n, 0 ≤ invOrOne (massAt n p T') k := fun k hk => (hinv k hk).1.right
  -- T @ P(1/pk)
  have hTD : ∀ i < n, ∀ l < n, App (1 - u) (a + (a + n + 1) + n)
      (matmul o n T (diag o fun k => o.div o.one (mass o n p T k)) i l) (T' i l * invOrOne (massAt n p T') l) ∧
      In δ 4 3 (T' i l * invOrOne (massAt n p T') l) := by
    intro i hi l hl
    have hI : ∀ k < n, In δ 4 3 (T' i k * (if k = l then invOrOne (massAt n p T') k else 0)) := fun k hk =>
      In.mul h.d0 (hT0 i hi k hk) (by split; exacts [hinv0 k hk, le_rfl]) (hTI i hi k hk) (in_diag (hinv k hk).2)
    have h0 : ∀ k < n, 0 ≤ T' i k * (if k = l then invOrOne (massAt n p T') k else 0) := fun k hk =>
      mul_nonneg (hT0 i hi k hk) (by split; exacts [hinv0 k hk, le_rfl])
    have hI2 : In δ 4 3 (T' i l * invOrOne (massAt n p T') l) := by
      have := hI l hl
      rwa [if_pos rfl] at this
    have key := dot_app hr h (m := a) (k := a + n + 1) (n := n) (A := fun k => T i k) (A' := fun k => T' i k)
      (B := fun k => diag o (fun k => o.div o.one (mass o n p T k)) k l)
      (B' := fun k => if k = l then invOrOne (massAt n p T') k else 0) (fun k hk => hT i hi k hk)
      (fun k hk => diag_app hr h (fun k hk => (hinv k hk).1) k l hk) (by omega)
      (fun k hk => (hI k hk).mono h.d0 h.d1 (h0 k hk) (by omega) (by omega)) (by
        rw [sum_diag _ _ hl]
        exact hI2.mono h.d0 h.d1 (mul_nonneg (hT0 i hi l hl) (hinv0 l hl)) (by omega) (by omega))
    rw [sum_diag _ _ hl] at key
    exact ⟨key, hI2⟩
  -- @ T.T
  have hterm : ∀ k < n, In δ 5 4 (T' i k * invOrOne (massAt n p T') k * T' j k) := fun k hk =>
    In.mul h.d0 (hTD i hi' k hk).1.right (hT0 j hj k hk) (hTD i hi' k hk).2 (hTI j hj k hk)
  have hterm0 : ∀ k < n, 0 ≤ T' i k * invOrOne (massAt n p T') k * T' j k := fun k hk =>
    mul_nonneg (hTD i hi' k hk).1.right (hT0 j hj k hk)
  have hsum : In δ 5 5 (gram n p T' i j) := In.sum h.d0 hn hterm0 hterm
  have hsum0 : 0 ≤ gram n p T' i j := Finset.sum_nonneg fun k hk => hterm0 k (Finset.mem_range.1 hk)
  have key := dot_app hr h (m := a + (a + n + 1) + n) (k := a) (n := n)
    (A := fun k => matmul o n T (diag o fun k => o.div o.one (mass o n p T k)) i k)
    (A' := fun k => T' i k * invOrOne (massAt n p T') k) (B := fun k => T j k) (B' := fun k => T' j k)
    (fun k hk => (hTD i hi' k hk).1) (fun k hk => hT j hj k hk) (by omega)
    (fun k hk => (hterm k hk).mono h.d0 h.d1 (hterm0 k hk) (by omega) (by omega))
    (hsum.mono h.d0 h.d1 hsum0 (by omega) (by omega))
  have hI := In.mul h.d0 hsum0 hdt0.le hsum hdtI
  have := mul_app hr h (a' := gram n p T' i j) key hdt (by omega)
    (hI.mono h.d0 h.d1 (mul_nonneg hsum0 hdt0.le) (by omega) (by omega))
  refine ⟨?_, hI⟩
  exact this.mono h.r1 h.r0 (by omega)

/-- `IPT` and `total_time` after the steps of a list. -/
def acc {F : Type} (o : Ops F) (n : Nat) (p : Nat → F) (l : List (Mat F × F)) : Mat F × F :=
  l.foldl (fun s e => (fun i j => o.add (s.1 i j) (stepMatrix o n p e.1 e.2 i j), o.add s.2 e.2))
    (fun _ _ => o.zero, o.zero)

theorem loop_eq {F : Type} (o : Ops F) (n : Nat) (p : Nat → F) (ks : List Nat) (l : List (Mat F × F)) :
    let s := l.zipIdx.foldl (pass o n p ks) ⟨fun _ _ => o.zero, o.zero, []⟩
    s.ipt = (acc o n p l).1 ∧ s.total = (acc o n p l).2 ∧
    s.out = ((List.range l.length).filter fun k => decide (k + 1 ∈ ks)).map fun k =>
      stored o n p (acc o n p (l.take (k + 1))).1 (acc o n p (l.take (k + 1))).2 := by
  induction l using List.reverseRecOn with
  | nil => exact ⟨rfl, rfl, rfl⟩
  | append_singleton l e ih =>
    intro s
    set s0 := l.zipIdx.foldl (pass o n p ks) ⟨fun _ _ => o.zero, o.zero, []⟩ with hs0
    obtain ⟨h1, h2, h3⟩ := ih
    have hs : s = pass o n p ks s0 (e, l.length) := by
      show (l ++ [e]).zipIdx.foldl _ _ = _
      rw [List.zipIdx_append, List.foldl_append]
      simp [hs0]
    have hacc : acc o n p (l ++ [e]) = (fun i j => o.add ((acc o n p l).1 i j) (stepMatrix o n p e.1 e.2 i j),
        o.add (acc o n p l).2 e.2) := by
      unfold acc
      rw [List.foldl_append]
      rfl
    have hi : s.ipt = (acc o n p (l ++ [e])).1 := by
      rw [hs, hacc, ← h1]; rfl
    have ht : s.total = (acc o n p (l ++ [e])).2 := by
      rw [hs, hacc, ← h2]; rfl
    refine ⟨hi, ht, ?_⟩
    have hout : s.out = if l.length + 1 ∈ ks then s0.out ++ [stored o n p s.ipt s.total] else s0.out := by
      rw [hs]
      rfl
    have htake : ∀ k < l.length, (l ++ [e]).take (k + 1) = l.take (k + 1) := by
      intro k hk
      rw [List.take_append_of_le_length (by omega)]
    rw [hout, hi, ht, h3, List.length_append, List.length_singleton, List.range_succ, List.filter_append,
      List.map_append]
    have hpre : (((List.range l.length).filter fun k => decide (k + 1 ∈ ks)).map fun k =>
        stored o n p (acc o n p (l.take (k + 1))).1 (acc o n p (l.take (k + 1))).2) =
        (((List.range l.length).filter fun k => decide (k + 1 ∈ ks)).map fun k =>
        stored o n p (acc o n p ((l ++ [e]).take (k + 1))).1 (acc o n p ((l ++ [e]).take (k + 1))).2) := by
      apply List.map_congr_left
      intro k hk
      rw [htake k (List.mem_range.1 (List.mem_filter.1 hk).1)]
    rw [hpre]
    by_cases hin : l.length + 1 ∈ ks
    · rw [if_pos hin, List.filter_cons, if_pos (by simpa using hin), List.filter_nil, List.map_singleton,
        List.take_of_length_le (by simp)]
    · rw [if_neg hin, List.filter_cons, if_neg (by simpa using hin), List.filter_nil, List.map_nil, List.append_nil]

theorem In.listSum (hd : 0 < δ) (hd1 : δ ≤ 1) {c d : Nat} {α : Type} {l : List α} (hn : δ * l.length ≤ 1) {f : α → K}
    (h0 : ∀ x ∈ l, 0 ≤ f x) (h : ∀ x ∈ l, In δ c d (f x)) : In δ c (d + 1) (l.map f).sum := by
  have e : (l.map f).sum = ∑ i ∈ Finset.range l.length, (fun i => if hi : i < l.length then f l[i] else 0) i := by
    rw [← sum_map_range]
    congr 1
    apply List.ext_getElem
    · simp
    · intro k h1 h2
      simp only [List.length_map] at h1
      simp [h1]
  rw [e]
  apply In.sum hd hn
  · intro i hi
    simp only [hi, dif_pos]
    exact h0 _ (List.getElem_mem hi)
  · intro i hi
    simp only [hi, dif_pos]
    exact h _ (List.getElem_mem hi)

theorem acc_app (hr : Rounds u lo hi o) (h : Room u lo hi δ L) (hn : δ * n ≤ 1)
    (hp : ∀ i < n, 0 ≤ p i ∧ In δ 1 1 (p i)) {l l' : List (Mat K × K)} (hl : List.Forall₂ (StepRel u δ n a) l l')
    (hm : δ * l'.length ≤ 1) (hL : 3 * a + 3 * n + 3 + l'.length ≤ L) :
    (∀ i < n, ∀ j < n, App (1 - u) (3 * a + 3 * n + 3 + l'.length) ((acc o n p l).1 i j) (gsum n p l' i j) ∧
      In δ 6 7 (gsum n p l' i j)) ∧
    App (1 - u) (1 + l'.length) (acc o n p l).2 (wsum l') ∧ In δ 1 2 (wsum l') := by
  -- ranges of all sums
  have hgI : ∀ l' : List (Mat K × K), δ * l'.length ≤ 1 → (∀ e' ∈ l', ∃ e, StepRel u δ n a e e') → ∀ i < n, ∀ j < n,
      In δ 6 7 (gsum n p l' i j) := by
    intro l' hm hl i hi j hj
    apply In.listSum h.d0 h.d1 hm
    · intro e' he'
      obtain ⟨e, he⟩ := hl e' he'
      exact (step_app hr h hn hp he (by omega) hi hj).1.right
    · intro e' he'
      obtain ⟨e, he⟩ := hl e' he'
      exact (step_app hr h hn hp he (by omega) hi hj).2
  have hwI : ∀ l' : List (Mat K × K), δ * l'.length ≤ 1 → (∀ e' ∈ l', ∃ e, StepRel u δ n a e e') →
      In δ 1 2 (wsum l') := by
    intro l' hm hl
    apply In.listSum h.d0 h.d1 hm
    · intro e' he'
      obtain ⟨e, he⟩ := hl e' he'
      exact he.pos.le
    · intro e' he'
      obtain ⟨e, he⟩ := hl e' he'
      exact he.lenIn
  have hex : ∀ l l' : List (Mat K × K), List.Forall₂ (StepRel u δ n a) l l' → ∀ e' ∈ l', ∃ e, StepRel u δ n a e e' := by
    intro l l' hl
    induction hl with
    | nil => intro e' he'; cases he'
    | cons h _ ih =>
      intro e' he'
      rcases List.mem_cons.1 he' with rfl | he'
      · exact ⟨_, h⟩
      · exact ih e' he'
  suffices hs : (∀ i < n, ∀ j < n, App (1 - u) (3 * a + 3 * n + 3 + l'.length) ((acc o n p l).1 i j) (gsum n p l' i j)) ∧
      App (1 - u) (1 + l'.length) (acc o n p l).2 (wsum l') from
    ⟨fun i hi j hj => ⟨hs.1 i hi j hj, hgI l' hm (hex l l' hl) i hi j hj⟩, hs.2, hwI l' hm (hex l l' hl)⟩
  induction l' using List.reverseRecOn generalizing l with
  | nil =>
    cases hl
    refine ⟨fun i hi j hj => ?_, ?_⟩
    · show App _ _ o.zero _
      rw [hr.zero]
      exact App.refl h.r1 h.r0 le_rfl
    · show App _ _ o.zero _
      rw [hr.zero]
      exact App.refl h.r1 h.r0 le_rfl
  | append_singleton l' e' ih =>
    obtain ⟨l0, e0, hl0, he0, rfl⟩ : ∃ l0 e0, List.Forall₂ (StepRel u δ n a) l0 l' ∧ StepRel u δ n a e0 e' ∧ l = l0 ++ [e0] := by
      have hlen := hl.length_eq
      rw [List.length_append, List.length_singleton] at hlen
      have hne : l ≠ [] := List.length_pos_iff.1 (by omega)
      obtain ⟨l0, e0, rfl⟩ : ∃ l0 e0, l = l0 ++ [e0] := ⟨l.dropLast, l.getLast hne, (List.dropLast_append_getLast hne).symm⟩
      have hlen2 : l0.length = l'.length := by simpa using hlen
      have h1 := List.forall₂_iff_get.1 hl
      refine ⟨l0, e0, List.forall₂_iff_get.2 ⟨hlen2, ?_⟩, ?_, rfl⟩
      · intro k hk hk'
        have := h1.2 k (by simp; omega) (by simp; omega)
        simpa [List.getElem_append_left hk, List.getElem_append_left hk'] using this
      · have := h1.2 l0.length (by simp) (by simp; omega)
        simpa [hlen2] using this
    have hm' : δ * (l'.length : K) ≤ 1 := by
      rw [List.length_append, List.length_singleton, Nat.cast_add, Nat.cast_one] at hm
      have := h.d0
      nlinarith
    rw [List.length_append, List.length_singleton] at hL ⊢
    obtain ⟨ih1, ih2⟩ := ih hl0 hm' (by omega)
    have hacc : acc o n p (l0 ++ [e0]) = (fun i j => o.add ((acc o n p l0).1 i j) (stepMatrix o n p e0.1 e0.2 i j),
        o.add (acc o n p l0).2 e0.2) := by
      unfold acc
      rw [List.foldl_append]
      rfl
    have hw : wsum (l' ++ [e']) = wsum l' + e'.2 := by unfold wsum; simp
    have hex' := hex _ _ hl
    refine ⟨fun i hi j hj => ?_, ?_⟩
    · have hg : gsum n p (l' ++ [e']) i j = gsum n p l' i j + gram n p e'.1 i j * e'.2 := by
        unfold gsum; simp
      have hs := step_app hr h hn hp he0 (by omega) hi hj
      have hI := hgI _ hm hex' i hi j hj
      rw [hacc]
      simp only
      rw [hg] at hI ⊢
      rw [← add_assoc]
      apply add_app hr h (ih1 i hi j hj) (hs.1.mono h.r1 h.r0 (by omega)) (by omega)
      exact hI.mono h.d0 h.d1 (add_nonneg (ih1 i hi j hj).right hs.1.right) (by omega) (by omega)
    · have hI := hwI _ hm hex'
      rw [hacc]
      simp only
      rw [hw] at hI ⊢
      rw [← add_assoc]
      apply add_app hr h ih2 (he0.len.mono h.r1 h.r0 (by omega)) (by omega)
      exact hI.mono h.d0 h.d1 (add_nonneg ih2.right he0.pos.le) (by omega) (by omega)

/-- The value stored for a time of the grid. -/
theorem stored_app (hr : Rounds u lo hi o) (h : Room u lo hi δ L) (hn : δ * n ≤ 1)
    (hp : ∀ i < n, 0 ≤ p i ∧ In δ 1 1 (p i)) {l l' : List (Mat K × K)} (hl : List.Forall₂ (StepRel u δ n a) l l')
    (hne : l' ≠ []) (hm : δ * l'.length ≤ 1) (hL : 3 * a + 5 * n + 2 * l'.length + 6 ≤ L) {i j : Nat} (hi' : i < n)
    (hj : j < n) :
    App (1 - u) (3 * a + 5 * n + 2 * l'.length + 6) (stored o n p (acc o n p l).1 (acc o n p l).2 i j)
      (p i * gsum n p l' i j * p j * (1 / wsum l')) ∧ 0 < wsum l' ∧
      In δ 10 10 (p i * gsum n p l' i j * p j * (1 / wsum l')) := by
  obtain ⟨hG, hW, hWI⟩ := acc_app hr h hn hp hl hm (by omega)
  have hpos : 0 < wsum l' := by
    obtain ⟨e', r, rfl⟩ := List.exists_cons_of_ne_nil hne
    cases hl with
    | cons h1 h2 =>
    have : 0 ≤ wsum r := by
      unfold wsum
      apply List.sum_nonneg
      intro x hx
      obtain ⟨y, hy, rfl⟩ := List.mem_map.1 hx
      obtain ⟨k, hk, rfl⟩ := List.getElem_of_mem hy
      have := (List.forall₂_iff_get.1 h2).2 k (by rw [h2.length_eq]; exact hk) hk
      exact this.pos.le
    have e : wsum (e' :: r) = e'.2 + wsum r := by unfold wsum; simp
    rw [e]
    linarith [h1.pos]
  set b := 3 * a + 3 * n + 3 + l'.length with hb
  have hG0 : ∀ i < n, ∀ j < n, 0 ≤ gsum n p l' i j := fun i hi j hj => (hG i hi j hj).1.right
  -- P(p1) @ IPT
  have hPG : ∀ i < n, ∀ j < n, App (1 - u) (0 + b + n) (matmul o n (diag o p) (acc o n p l).1 i j)
      (p i * gsum n p l' i j) ∧ In δ 7 8 (p i * gsum n p l' i j) := by
    intro i hi j hj
    have hI : ∀ k < n, In δ 7 8 ((if i = k then p i else 0) * gsum n p l' k j) := fun k hk => by
      have := In.mul h.d0 (by split; exacts [(hp i hi).1, le_rfl]) (hG0 k hk j hj)
        (in_diag (P := i = k) (hp i hi).2) (hG k hk j hj).2
      exact this
    have h0 : ∀ k < n, 0 ≤ (if i = k then p i else 0) * gsum n p l' k j := fun k hk =>
      mul_nonneg (by split; exacts [(hp i hi).1, le_rfl]) (hG0 k hk j hj)
    have hI2 : In δ 7 8 (p i * gsum n p l' i j) := by
      have := hI i hi
      rwa [if_pos rfl] at this
    have key := dot_app hr h (m := 0) (k := b) (n := n) (A := fun k => diag o p i k)
      (A' := fun k => if i = k then p i else 0) (B := fun k => (acc o n p l).1 k j) (B' := fun k => gsum n p l' k j)
      (fun k hk => diag_app hr h (fun k hk => App.refl h.r1 h.r0 (hp k hk).1) i k hi)
      (fun k hk => (hG k hk j hj).1) (by omega)
      (fun k hk => (hI k hk).mono h.d0 h.d1 (h0 k hk) (by omega) (by omega)) (by
        rw [sum_diag' (fun k => gsum n p l' k j) p hi]
        exact hI2.mono h.d0 h.d1 (mul_nonneg (hp i hi).1 (hG0 i hi j hj)) (by omega) (by omega))
    rw [sum_diag' (fun k => gsum n p l' k j) p hi] at key
    exact ⟨key, hI2⟩
  -- @ P(p1)
  have hPGP : App (1 - u) (0 + b + n + 0 + n) (matmul o n (matmul o n (diag o p) (acc o n p l).1) (diag o p) i j)
      (p i * gsum n p l' i j * p j) ∧ In δ 8 9 (p i * gsum n p l' i j * p j) := by
    have hI : ∀ k < n, In δ 8 9 (p i * gsum n p l' i k * (if k = j then p k else 0)) := fun k hk =>
      In.mul h.d0 (hPG i hi' k hk).1.right (by split; exacts [(hp k hk).1, le_rfl]) (hPG i hi' k hk).2
        (in_diag (hp k hk).2)
    have h0 : ∀ k < n, 0 ≤ p i * gsum n p l' i k * (if k = j then p k else 0) := fun k hk =>
      mul_nonneg (hPG i hi' k hk).1.right (by split; exacts [(hp k hk).1, le_rfl])
    have hI2 : In δ 8 9 (p i * gsum n p l' i j * p j) := by
      have := hI j hj
      rwa [if_pos rfl] at this
    have key := dot_app hr h (m := 0 + b + n) (k := 0) (n := n)
      (A := fun k => matmul o n (diag o p) (acc o n p l).1 i k) (A' := fun k => p i * gsum n p l' i k)
      (B := fun k => diag o p k j) (B' := fun k => if k = j then p k else 0) (fun k hk => (hPG i hi' k hk).1)
      (fun k hk => diag_app hr h (fun k hk => App.refl h.r1 h.r0 (hp k hk).1) k j hk) (by omega)
      (fun k hk => (hI k hk).mono h.d0 h.d1 (h0 k hk) (by omega) (by omega)) (by
        rw [sum_diag (fun k => p i * gsum n p l' i k) p hj]
        exact hI2.mono h.d0 h.d1 (mul_nonneg (hPG i hi' j hj).1.right (hp j hj).1) (by omega) (by omega))
    rw [sum_diag (fun k => p i * gsum n p l' i k) p hj] at key
    exact ⟨key, hI2⟩
  have hinvI : In δ 2 1 (1 / wsum l') := hWI.inv h.d0
  have hinv0 : 0 ≤ 1 / wsum l' := one_div_nonneg.2 hpos.le
  have hinv := inv_app hr h hW hpos (by omega) (hinvI.mono h.d0 h.d1 hinv0 (by omega) (by omega))
  have hI := In.mul h.d0 hPGP.1.right hinv0 hPGP.2 hinvI
  have := mul_app hr h hPGP.1 hinv (by omega) hI
  exact ⟨this.mono h.r1 h.r0 (by omega), hpos, hI⟩

/-- The covariance stored for a time of the grid. -/
theorem covariance_error (hr : Rounds u lo hi o) (h : Room u lo hi δ L) (hn : δ * n ≤ 1)
    (hp : ∀ i < n, 0 ≤ p i ∧ In δ 1 1 (p i)) {l l' : List (Mat K × K)} (hl : List.Forall₂ (StepRel u δ n a) l l')
    (hne : l' ≠ []) (hm : δ * l'.length ≤ 1) (hL : 3 * a + 5 * n + 2 * l'.length + 6 ≤ L) {i j : Nat} (hi' : i < n)
    (hj : j < n) :
    |o.sub (stored o n p (acc o n p l).1 (acc o n p l).2 i j) (o.mul (p i) (p j)) -
        (p i * gsum n p l' i j * p j * (1 / wsum l') - p i * p j)| ≤
      ((1 - u)⁻¹ ^ (L + 1) - 1) * (p i * gsum n p l' i j * p j * (1 / wsum l') + p i * p j) + u * lo := by
  obtain ⟨h1, -, h1I⟩ := stored_app hr h hn hp hl hne hm hL hi' hj
  have h1 := h1.mono h.r1 h.r0 hL
  have hpI := In.mul h.d0 (hp i hi').1 (hp j hj).1 (hp i hi').2 (hp j hj).2
  have h2 := mul_app hr h (m := 0) (k := 0) (App.refl h.r1 h.r0 (hp i hi').1) (App.refl h.r1 h.r0 (hp j hj).1)
    (by omega) (hpI.mono h.d0 h.d1 (mul_nonneg (hp i hi').1 (hp j hj).1) (by omega) (by omega))
  have h2 := h2.mono h.r1 h.r0 (show 0 + 0 + 1 ≤ L by omega)
  set X := stored o n p (acc o n p l).1 (acc o n p l).2 i j with hX
  set Y := o.mul (p i) (p j) with hY
  set X' := p i * gsum n p l' i j * p j * (1 / wsum l') with hX'
  set Y' := p i * p j with hY'
  have hXr : X ≤ hi := by
    rcases h.range h1 le_rfl h1I with e | e
    · rw [e]; exact h.hi_pos.le
    · exact e.2
  have hYr : Y ≤ hi := by
    rcases h.range h2 le_rfl (hpI.mono h.d0 h.d1 (mul_nonneg (hp i hi').1 (hp j hj).1) (by omega) (by omega)) with e | e
    · rw [e]; exact h.hi_pos.le
    · exact e.2
  have hs := hr.sub X Y (by rw [abs_le]; constructor <;> linarith [h1.left, h2.left])
  have d1 := h1.dist h.r0 h.r1
  have d2 := h2.dist h.r0 h.r1
  set q := (1 - u)⁻¹ with hq
  have hq1 : 1 ≤ q := by rw [hq]; exact (one_le_inv₀ h.r0).2 h.r1
  have hqu : u ≤ q - 1 := by
    have e : q * (1 - u) = 1 := by rw [hq]; exact inv_mul_cancel₀ h.r0.ne'
    nlinarith [h.u0]
  have hQ : 1 ≤ q ^ L := one_le_pow₀ hq1
  have hmax : max |X - Y| lo ≤ X + Y + lo := by
    apply max_le
    · rw [abs_le]
      constructor <;> linarith [h1.left, h2.left, h.pos]
    · linarith [h1.left, h2.left]
  have hXle : X ≤ q ^ L * X' := by have := (abs_le.1 d1).2; linarith
  have hYle : Y ≤ q ^ L * Y' := by have := (abs_le.1 d2).2; linarith
  have hs' : |o.sub X Y - (X - Y)| ≤ u * (q ^ L * (X' + Y')) + u * lo := by
    refine hs.trans ((mul_le_mul_of_nonneg_left hmax h.u0).trans ?_)
    have := mul_le_mul_of_nonneg_left (add_le_add hXle hYle) h.u0
    linarith
  have htri : |o.sub X Y - (X' - Y')| ≤ |o.sub X Y - (X - Y)| + (|X - X'| + |Y - Y'|) := by
    have e : o.sub X Y - (X' - Y') = (o.sub X Y - (X - Y)) + ((X - X') - (Y - Y')) := by ring
    rw [e]
    exact (abs_add_le _ _).trans (add_le_add le_rfl (abs_sub _ _))
  have hS : 0 ≤ X' + Y' := add_nonneg h1.right h2.right
  have hfin : u * (q ^ L * (X' + Y')) + (q ^ L - 1) * (X' + Y') ≤ (q ^ (L + 1) - 1) * (X' + Y') := by
    have : u * q ^ L + (q ^ L - 1) ≤ q ^ (L + 1) - 1 := by
      rw [pow_succ]
      nlinarith
    nlinarith
  linarith

end Verif.FloatFlow
