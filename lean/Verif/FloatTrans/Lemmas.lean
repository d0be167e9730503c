import Verif.FloatTrans.Spec
import Verif.Rounding.Errors
import Verif.Csr.Lemmas
import Verif.Trans.Lemmas
import Mathlib.Algebra.Order.BigOperators.Group.Finset
import Mathlib.Algebra.Order.Ring.Pow
import Mathlib.Data.List.GetD

/-!
# Errors of products and row normalisations
-/

set_option linter.unusedSectionVars false

namespace Verif.FloatTrans

open Verif.Rounding (Near one_le_pow')
open Verif.Csr (sumAt sumAt_cons sumAt_nil)

variable {K : Type} [Field K] [LinearOrder K] [IsStrictOrderedRing K]
variable {u τ B : K} {o : Ops K}

/-! ### Numbers -/

theorem bern (hu : 0 ≤ u) (hu1 : u ≤ 1) (m : Nat) : 1 - m * u ≤ (1 - u) ^ m := by
  induction m with
  | zero => simp
  | succ m ih =>
    have h0 : 0 ≤ 1 - u := by linarith
    have h1 := mul_le_mul_of_nonneg_right ih h0
    have h2 : 0 ≤ (m : K) * u * u := by positivity
    rw [pow_succ]
    push_cast
    nlinarith

theorem pow_up (hu : 0 ≤ u) (m : Nat) (h : 2 * m * u ≤ 1) : (1 + u) ^ m ≤ 1 + 2 * m * u := by
  induction m with
  | zero => simp
  | succ m ih =>
    push_cast at h
    have h1 := ih (by nlinarith)
    have h3 := mul_le_mul_of_nonneg_right h1 (show (0 : K) ≤ 1 + u by linarith)
    rw [pow_succ]
    push_cast
    nlinarith

/-- Rounding a number that is already near. -/
theorem round_near (hu : 0 ≤ u) {q : Nat} {a x A r : K} (h : Near u q a x A) (hτ : τ ≤ A)
    (hr : |r - a| ≤ u * max |a| τ) : Near u (q + 1) r x A := by
  have e1 := h.bound
  have e2 := one_le_pow' hu q
  have hA := h.nonneg
  have e3 : max |a| τ ≤ (1 + u) ^ q * A := max_le e1 (by nlinarith)
  have e4 : u * max |a| τ ≤ u * ((1 + u) ^ q * A) := mul_le_mul_of_nonneg_left e3 hu
  refine ⟨?_, h.2⟩
  have e5 : r - x = (r - a) + (a - x) := by ring
  rw [e5]
  have e6 := abs_add_le (r - a) (a - x)
  have e7 := h.1
  have e8 : ((1 + u) ^ (q + 1) - 1) * A = u * ((1 + u) ^ q * A) + ((1 + u) ^ q - 1) * A := by ring
  rw [e8]
  linarith

theorem near_add {q : Nat} {a x A b y A' : K} (h : Near u q a x A) (h' : Near u q b y A') :
    Near u q (a + b) (x + y) (A + A') := by
  refine ⟨?_, le_trans (abs_add_le x y) (add_le_add h.2 h'.2)⟩
  have e : a + b - (x + y) = (a - x) + (b - y) := by ring
  rw [e]
  have := abs_add_le (a - x) (b - y)
  have := h.1
  have := h'.1
  rw [mul_add]
  linarith

/-! ### The accumulator -/

/-- The products accumulated for one row: position and the two factors. -/
def terms (r : Row K) (M : Mat K) : List (Nat × K × K) :=
  r.flatMap fun e => (M.getD e.1 []).map fun e' => (e'.1, e.2, e'.2)

theorem rowProd_eq (r : Row K) (M : Mat K) :
    rowProd o r M
      = (terms r M).foldl (fun acc t => scatter o (o.mul t.2.1 t.2.2) t.1 acc) [] := by
  unfold rowProd terms
  suffices h : ∀ acc : Row K, r.foldl (fun acc e => (M.getD e.1 []).foldl
      (fun acc e' => scatter o (o.mul e.2 e'.2) e'.1 acc) acc) acc
      = (r.flatMap fun e => (M.getD e.1 []).map fun e' => (e'.1, e.2, e'.2)).foldl
        (fun acc t => scatter o (o.mul t.2.1 t.2.2) t.1 acc) acc from h []
  induction r with
  | nil => intro acc; rfl
  | cons e r ih =>
    intro acc
    rw [List.foldl_cons, ih, List.flatMap_cons, List.foldl_append, List.foldl_map]

/-- Number of products at a position. -/
def cnt (l : List (Nat × K × K)) (j : Nat) : Nat := (l.filter fun t => t.1 == j).length

/-- Exact sum of the products at a position. -/
def ex (l : List (Nat × K × K)) (j : Nat) : K :=
  ((l.filter fun t => t.1 == j).map fun t => t.2.1 * t.2.2).sum

theorem cnt_snoc (l : List (Nat × K × K)) (t : Nat × K × K) (j : Nat) :
    cnt (l ++ [t]) j = cnt l j + (if t.1 = j then 1 else 0) := by
  unfold cnt
  rw [List.filter_append, List.length_append]
  by_cases h : t.1 = j <;> simp [h]

theorem ex_snoc (l : List (Nat × K × K)) (t : Nat × K × K) (j : Nat) :
    ex (l ++ [t]) j = ex l j + (if t.1 = j then t.2.1 * t.2.2 else 0) := by
  unfold ex
  rw [List.filter_append, List.map_append, List.sum_append]
  by_cases h : t.1 = j <;> simp [h]

theorem ex_nonneg (l : List (Nat × K × K)) (h : ∀ t ∈ l, 0 ≤ t.2.1 ∧ 0 ≤ t.2.2) (j : Nat) :
    0 ≤ ex l j := by
  unfold ex
  apply List.sum_nonneg
  intro x hx
  obtain ⟨t, ht, rfl⟩ := List.mem_map.1 hx
  have := h t (List.mem_of_mem_filter ht)
  exact mul_nonneg this.1 this.2

theorem mem_scatter (v : K) (j : Nat) (acc : Row K) (hn : (acc.map Prod.fst).Nodup) :
    ((scatter o v j acc).map Prod.fst).Nodup ∧
    (∀ c, c ∈ (scatter o v j acc).map Prod.fst ↔ c = j ∨ c ∈ acc.map Prod.fst) ∧
    (∀ e ∈ scatter o v j acc, (e.1 ≠ j ∧ e ∈ acc) ∨
      (e.1 = j ∧ ((e.2 = v ∧ j ∉ acc.map Prod.fst) ∨ ∃ w, (j, w) ∈ acc ∧ e.2 = o.add w v))) := by
  induction acc with
  | nil => simp [scatter]
  | cons a acc ih =>
    obtain ⟨c, w⟩ := a
    simp only [List.map_cons, List.nodup_cons] at hn
    obtain ⟨i1, i2, i3⟩ := ih hn.2
    by_cases hc : c = j
    · subst hc
      simp only [scatter, if_true]
      refine ⟨?_, ?_, ?_⟩
      · simp only [List.map_cons, List.nodup_cons]
        exact hn
      · intro x; simp
      · intro e he
        rcases List.mem_cons.1 he with rfl | he
        · exact Or.inr ⟨rfl, Or.inr ⟨w, by simp, rfl⟩⟩
        · refine Or.inl ⟨?_, by simp [he]⟩
          intro h
          exact hn.1 (h ▸ List.mem_map_of_mem he)
    · simp only [scatter, if_neg hc]
      refine ⟨?_, ?_, ?_⟩
      · simp only [List.map_cons, List.nodup_cons]
        refine ⟨?_, i1⟩
        rw [i2]
        rintro (h | h)
        · exact hc h
        · exact hn.1 h
      · intro x
        simp only [List.map_cons, List.mem_cons]
        rw [i2]
        tauto
      · intro e he
        rcases List.mem_cons.1 he with rfl | he
        · exact Or.inl ⟨hc, by simp⟩
        · rcases i3 e he with ⟨h1, h2⟩ | ⟨h1, h2⟩
          · exact Or.inl ⟨h1, by simp [h2]⟩
          · refine Or.inr ⟨h1, ?_⟩
            rcases h2 with ⟨h3, h4⟩ | ⟨w', h3, h4⟩
            · refine Or.inl ⟨h3, ?_⟩
              simp only [List.map_cons, List.mem_cons, not_or]
              exact ⟨fun h => hc h.symm, h4⟩
            · exact Or.inr ⟨w', by simp [h3], h4⟩

/-- What the accumulator holds after any sequence of products. -/
theorem accumulate (hr : Rounds u τ B o) (hu : 0 ≤ u) (hτ : 0 ≤ τ) (l : List (Nat × K × K))
    (hl : ∀ t ∈ l, 0 ≤ t.2.1 ∧ 0 ≤ t.2.2)
    (hB : ∀ j, (1 + u) ^ cnt l j * (ex l j + cnt l j * τ) ≤ B) :
    let acc := l.foldl (fun acc t => scatter o (o.mul t.2.1 t.2.2) t.1 acc) []
    (acc.map Prod.fst).Nodup ∧ (∀ c, c ∈ acc.map Prod.fst ↔ 0 < cnt l c) ∧
    ∀ e ∈ acc, 0 ≤ e.2 ∧ Near u (cnt l e.1) e.2 (ex l e.1) (ex l e.1 + cnt l e.1 * τ) := by
  induction l using List.reverseRecOn with
  | nil => simp [cnt]
  | append_singleton l t ih =>
    have hl' : ∀ t ∈ l, 0 ≤ t.2.1 ∧ 0 ≤ t.2.2 := fun t' ht' => hl t' (by simp [ht'])
    have ht := hl t (by simp)
    have hp : 0 ≤ t.2.1 * t.2.2 := mul_nonneg ht.1 ht.2
    have hB' : ∀ j, (1 + u) ^ cnt l j * (ex l j + cnt l j * τ) ≤ B := by
      intro j
      refine le_trans ?_ (hB j)
      rw [cnt_snoc, ex_snoc]
      have e0 := ex_nonneg l hl' j
      refine mul_le_mul (pow_le_pow_right₀ (by linarith) (by omega)) ?_ (by positivity) (by positivity)
      by_cases h : t.1 = j
      · simp only [h, if_true]; push_cast; nlinarith
      · simp [h]
    have ih' := ih hl' hB'
    simp only at ih' ⊢
    rw [List.foldl_append, List.foldl_cons, List.foldl_nil]
    set acc := l.foldl (fun acc t => scatter o (o.mul t.2.1 t.2.2) t.1 acc) [] with hacc
    obtain ⟨i1, i2, i3⟩ := ih'
    obtain ⟨s1, s2, s3⟩ := mem_scatter (o := o) (o.mul t.2.1 t.2.2) t.1 acc i1
    have hpow : 1 ≤ (1 + u) ^ cnt (l ++ [t]) t.1 := one_le_pow' hu _
    have hBt := hB t.1
    have e0 := ex_nonneg l hl' t.1
    have hex : ex (l ++ [t]) t.1 = ex l t.1 + t.2.1 * t.2.2 := by rw [ex_snoc, if_pos rfl]
    have hcn : cnt (l ++ [t]) t.1 = cnt l t.1 + 1 := by rw [cnt_snoc, if_pos rfl]
    have hpB : t.2.1 * t.2.2 ≤ B := by
      refine le_trans ?_ hBt
      rw [hex]
      have h0 : 0 ≤ (cnt (l ++ [t]) t.1 : K) * τ := by positivity
      nlinarith
    have hmul : Near u 1 (o.mul t.2.1 t.2.2) (t.2.1 * t.2.2) (t.2.1 * t.2.2 + τ) := by
      refine round_near (q := 0) hu (a := t.2.1 * t.2.2) ?_ (by linarith)
        (hr.mul _ _ (by rw [abs_of_nonneg hp]; exact hpB))
      refine ⟨by simp, ?_⟩
      rw [abs_of_nonneg hp]
      linarith
    have hmn := hr.mul_nonneg _ _ ht.1 ht.2 hpB
    refine ⟨s1, ?_, ?_⟩
    · intro c
      rw [s2, i2, cnt_snoc]
      constructor
      · rintro (h | h)
        · simp [h]
        · omega
      · intro h
        by_cases hc : t.1 = c
        · exact Or.inl hc.symm
        · right
          simpa [hc] using h
    · intro e he
      rcases s3 e he with ⟨h1, h2⟩ | ⟨h1, h2⟩
      · have := i3 e h2
        rw [cnt_snoc, ex_snoc, if_neg (fun h => h1 h.symm), if_neg (fun h => h1 h.symm)]
        simpa using this
      · rw [h1, hex, hcn]
        rcases h2 with ⟨h3, h4⟩ | ⟨w, h3, h4⟩
        · have hc0 : cnt l t.1 = 0 := by
            have := mt (i2 t.1).2 h4
            omega
          have he0 : ex l t.1 = 0 := by
            unfold ex
            unfold cnt at hc0
            rw [List.length_eq_zero_iff.1 hc0]
            rfl
          rw [h3, hc0, he0]
          refine ⟨hmn, ?_⟩
          simpa using hmul
        · have hw := i3 _ h3
          have hc0 : 0 < cnt l t.1 := (i2 t.1).1 (List.mem_map_of_mem h3)
          have hw2 : Near u (cnt l t.1) w (ex l t.1) (ex l t.1 + cnt l t.1 * τ) := hw.2
          have hs := near_add hw2 (hmul.mono hu hc0)
          have hA : ex l t.1 + cnt l t.1 * τ + (t.2.1 * t.2.2 + τ)
              = ex l t.1 + t.2.1 * t.2.2 + (cnt l t.1 + 1 : Nat) * τ := by
            push_cast; ring
          rw [hA] at hs
          have hb := hs.bound
          have hnn : 0 ≤ w + o.mul t.2.1 t.2.2 := add_nonneg hw.1 hmn
          have hle : |w + o.mul t.2.1 t.2.2| ≤ B := by
            refine le_trans hb (le_trans ?_ hBt)
            rw [hex, hcn]
            refine mul_le_mul_of_nonneg_right (pow_le_pow_right₀ (by linarith) (by omega)) (by positivity)
          rw [h4]
          refine ⟨hr.add_nonneg _ _ hw.1 hmn (by rwa [abs_of_nonneg hnn] at hle), ?_⟩
          refine round_near hu hs ?_ (hr.add _ _ hle)
          push_cast
          nlinarith [mul_nonneg (Nat.cast_nonneg (α := K) (cnt l t.1)) hτ]

/-! ### One row of a product -/

theorem sumAt_nonneg (r : Row K) (h : ∀ e ∈ r, 0 ≤ e.2) (j : Nat) : 0 ≤ sumAt r j := by
  unfold sumAt
  apply List.sum_nonneg
  intro x hx
  obtain ⟨t, ht, rfl⟩ := List.mem_map.1 hx
  exact h t (List.mem_of_mem_filter ht)

theorem length_le_of_nodup (r : Row K) (n : Nat) (hn : (r.map Prod.fst).Nodup)
    (hc : ∀ e ∈ r, e.1 < n) : r.length ≤ n := by
  have h : (r.map Prod.fst) ⊆ List.range n := by
    intro c hc'
    obtain ⟨e, he, rfl⟩ := List.mem_map.1 hc'
    exact List.mem_range.2 (hc e he)
  have := (List.subperm_of_subset hn h).length_le
  simpa using this

theorem row_square {n : Nat} {M : Mat K} (h : Square n M) (k : Nat) :
    ((M.getD k []).map Prod.fst).Nodup ∧ ∀ e ∈ M.getD k [], e.1 < n := by
  by_cases hk : k < M.length
  · have : M.getD k [] ∈ M := by
      rw [List.getD_eq_getElem _ _ hk]
      exact List.getElem_mem hk
    exact h.2 _ this
  · rw [List.getD_eq_default _ _ (by omega)]
    simp

theorem row_nonneg {M : Mat K} (h : NonNeg M) (k : Nat) : ∀ e ∈ M.getD k [], 0 ≤ e.2 := by
  by_cases hk : k < M.length
  · have : M.getD k [] ∈ M := by
      rw [List.getD_eq_getElem _ _ hk]
      exact List.getElem_mem hk
    exact h _ this
  · rw [List.getD_eq_default _ _ (by omega)]
    simp

theorem count_le_one (r : Row K) (hn : (r.map Prod.fst).Nodup) (j : Nat) :
    (r.filter fun e => e.1 == j).length ≤ 1 := by
  induction r with
  | nil => simp
  | cons e r ih =>
    simp only [List.map_cons, List.nodup_cons] at hn
    by_cases h : e.1 = j
    · have : (r.filter fun e => e.1 == j) = [] := by
        rw [List.filter_eq_nil_iff]
        intro e' he' h'
        have h'' : e'.1 = j := by simpa using h'
        exact hn.1 (by rw [h, ← h'']; exact List.mem_map_of_mem he')
      simp [h, this]
    · simpa [h] using ih hn.2

theorem cnt_terms_le (r : Row K) (M : Mat K) {n : Nat} (hM : Square n M) (j : Nat) :
    cnt (terms r M) j ≤ r.length := by
  unfold cnt terms
  induction r with
  | nil => simp
  | cons e r ih =>
    rw [List.flatMap_cons, List.filter_append, List.length_append, List.length_cons]
    have h1 : (List.filter (fun t => t.1 == j)
        (List.map (fun e' => (e'.1, e.2, e'.2)) (M.getD e.1 []))).length ≤ 1 := by
      rw [List.filter_map, List.length_map]
      exact count_le_one _ (row_square hM e.1).1 j
    omega

theorem cnt_terms_pos (r : Row K) (M : Mat K) {n : Nat} (hM : Square n M) (j : Nat)
    (h : 0 < cnt (terms r M) j) : j < n := by
  unfold cnt terms at h
  obtain ⟨t, ht⟩ := List.exists_mem_of_length_pos h
  rw [List.mem_filter, List.mem_flatMap] at ht
  obtain ⟨⟨e, _, he⟩, h2⟩ := ht
  obtain ⟨e', he', rfl⟩ := List.mem_map.1 he
  have : e'.1 = j := by simpa using h2
  rw [← this]
  exact (row_square hM e.1).2 e' he'

theorem ex_terms (r : Row K) (M : Mat K) {n : Nat} (hr : ∀ e ∈ r, e.1 < n) (j : Nat) :
    ex (terms r M) j = ∑ k ∈ Finset.range n, sumAt r k * val M k j := by
  rw [← Csr.sum_row_mul r n hr]
  unfold ex terms val
  induction r with
  | nil => simp
  | cons e r ih =>
    rw [List.flatMap_cons, List.filter_append, List.map_append, List.sum_append,
      ih fun e he => hr e (by simp [he]), List.map_cons, List.sum_cons]
    congr 1
    rw [List.filter_map, List.map_map]
    unfold sumAt
    rw [← List.sum_map_mul_left]
    rfl

theorem terms_nonneg (r : Row K) (M : Mat K) (hr : ∀ e ∈ r, 0 ≤ e.2) (hM : NonNeg M) :
    ∀ t ∈ terms r M, 0 ≤ t.2.1 ∧ 0 ≤ t.2.2 := by
  intro t ht
  obtain ⟨e, he, h⟩ := List.mem_flatMap.1 ht
  obtain ⟨e', he', rfl⟩ := List.mem_map.1 h
  exact ⟨hr e he, row_nonneg hM _ e' he'⟩

theorem rowProd_spec (hr : Rounds u τ B o) (hu : 0 ≤ u) (hτ : 0 ≤ τ) {n : Nat} {M : Mat K}
    (hM : Square n M) (hMn : NonNeg M) (r : Row K) (hn : (r.map Prod.fst).Nodup)
    (hc : ∀ e ∈ r, e.1 < n) (hp : ∀ e ∈ r, 0 ≤ e.2) (hB0 : 0 ≤ B)
    (hB : ∀ j < n, (1 + u) ^ n * (∑ k ∈ Finset.range n, sumAt r k * val M k j + n * τ) ≤ B) :
    ((rowProd o r M).map Prod.fst).Nodup ∧ (∀ e ∈ rowProd o r M, e.1 < n) ∧
    (∀ e ∈ rowProd o r M, 0 ≤ e.2) ∧
    ∀ j, |sumAt (rowProd o r M) j - ∑ k ∈ Finset.range n, sumAt r k * val M k j|
      ≤ ((1 + u) ^ n - 1) * (∑ k ∈ Finset.range n, sumAt r k * val M k j + n * τ) := by
  have hlen := length_le_of_nodup r n hn hc
  have hnn := terms_nonneg r M hp hMn
  have hcn : ∀ j, cnt (terms r M) j ≤ n := fun j => le_trans (cnt_terms_le r M hM j) hlen
  have hex : ∀ j, ex (terms r M) j = ∑ k ∈ Finset.range n, sumAt r k * val M k j :=
    fun j => ex_terms r M hc j
  have hmono : ∀ j, ex (terms r M) j + cnt (terms r M) j * τ
      ≤ ∑ k ∈ Finset.range n, sumAt r k * val M k j + n * τ := by
    intro j
    rw [hex]
    have : (cnt (terms r M) j : K) ≤ n := by exact_mod_cast hcn j
    have := mul_le_mul_of_nonneg_right this hτ
    linarith
  have hzero : ∀ j, cnt (terms r M) j = 0 → ex (terms r M) j = 0 := by
    intro j h
    unfold ex
    unfold cnt at h
    rw [List.length_eq_zero_iff.1 h]
    rfl
  have hacc := accumulate hr hu hτ (terms r M) hnn (by
    intro j
    by_cases hj : 0 < cnt (terms r M) j
    · have e0 := ex_nonneg _ hnn j
      exact le_trans (mul_le_mul (pow_le_pow_right₀ (by linarith) (hcn j)) (hmono j) (by positivity)
        (by positivity)) (hB j (cnt_terms_pos r M hM j hj))
    · have h0 : cnt (terms r M) j = 0 := by omega
      rw [h0, hzero j h0]
      simpa using hB0)
  simp only at hacc
  rw [← rowProd_eq] at hacc
  obtain ⟨a1, a2, a3⟩ := hacc
  refine ⟨a1, ?_, fun e he => (a3 e he).1, ?_⟩
  · intro e he
    exact cnt_terms_pos r M hM _ ((a2 e.1).1 (List.mem_map_of_mem he))
  · intro j
    have e0 := ex_nonneg _ hnn j
    have hn1 := one_le_pow' hu n
    by_cases hj : 0 < cnt (terms r M) j
    · obtain ⟨e, he, rfl⟩ := List.mem_map.1 ((a2 j).2 hj)
      rw [Csr.sumAt_of_mem _ a1 e he, ← hex]
      refine le_trans (((a3 e he).2.mono hu (hcn e.1)).1) ?_
      have := hmono e.1
      rw [← hex] at this
      exact mul_le_mul_of_nonneg_left this (by linarith)
    · have h0 : cnt (terms r M) j = 0 := by omega
      rw [Csr.sumAt_eq_zero, ← hex, hzero j h0]
      · simp only [sub_zero, abs_zero, zero_add]
        have : 0 ≤ (n : K) * τ := by positivity
        exact mul_nonneg (by linarith) this
      · intro e he h
        exact hj (h ▸ (a2 e.1).1 (List.mem_map_of_mem he))

/-! ### Row normalisation -/

theorem foldl_near {add : K → K → K} (hadd : ∀ a b, |a + b| ≤ B → |add a b - (a + b)| ≤ u * max |a + b| τ)
    (haddn : ∀ a b, 0 ≤ a → 0 ≤ b → a + b ≤ B → 0 ≤ add a b) (hu : 0 ≤ u) (hτ : 0 ≤ τ) (l : List K)
    (hp : ∀ x ∈ l, 0 ≤ x) (hB : (1 + u) ^ l.length * (l.sum + l.length * τ) ≤ B) :
    0 ≤ l.foldl add 0 ∧ Near u l.length (l.foldl add 0) l.sum (l.sum + l.length * τ) := by
  induction l using List.reverseRecOn with
  | nil => simp [Near]
  | append_singleton r e ih =>
    have hp' : ∀ x ∈ r, 0 ≤ x := fun x hx => hp x (by simp [hx])
    have he := hp e (by simp)
    have hs : 0 ≤ r.sum := List.sum_nonneg hp'
    simp only [List.sum_append, List.sum_cons,
      List.sum_nil, add_zero, List.length_append, List.length_cons, List.length_nil, zero_add,
      List.foldl_append, List.foldl_cons, List.foldl_nil] at hB ⊢
    obtain ⟨i1, i2⟩ := ih hp' (by
      refine le_trans ?_ hB
      refine mul_le_mul (pow_le_pow_right₀ (by linarith) (by omega)) ?_ (by positivity) (by positivity)
      push_cast
      nlinarith)
    set s := r.foldl add 0 with hsdef
    have h2 : Near u r.length (s + e) (r.sum + e) (r.sum + e + (r.length + 1 : Nat) * τ) := by
      have h3 : Near u r.length e e (e + τ) := by
        have h1 := one_le_pow' hu r.length
        refine ⟨?_, ?_⟩
        · rw [sub_self, abs_zero]
          exact mul_nonneg (by linarith) (by linarith)
        · rw [abs_of_nonneg he]; linarith
      have := near_add i2 h3
      have e1 : r.sum + r.length * τ + (e + τ) = r.sum + e + (r.length + 1 : Nat) * τ := by
        push_cast; ring
      rwa [e1] at this
    have hle : |s + e| ≤ B := by
      refine le_trans h2.bound (le_trans ?_ hB)
      exact mul_le_mul_of_nonneg_right (pow_le_pow_right₀ (by linarith) (by omega)) (by positivity)
    refine ⟨haddn _ _ i1 he (by rwa [abs_of_nonneg (add_nonneg i1 he)] at hle), ?_⟩
    refine round_near hu h2 ?_ (hadd _ _ hle)
    push_cast
    nlinarith [mul_nonneg (Nat.cast_nonneg (α := K) r.length) hτ]

theorem rowSum_near (hr : Rounds u τ B o) (hu : 0 ≤ u) (hτ : 0 ≤ τ) (c : Bool) (r : Row K)
    (hp : ∀ e ∈ r, 0 ≤ e.2)
    (hB : (1 + u) ^ r.length * ((r.map Prod.snd).sum + r.length * τ) ≤ B) :
    |rowSum o c r - (r.map Prod.snd).sum|
      ≤ ((1 + u) ^ r.length - 1) * ((r.map Prod.snd).sum + r.length * τ) := by
  cases c with
  | true =>
    simp only [rowSum, if_true]
    have h := (foldl_near hr.add hr.add_nonneg hu hτ (r.map Prod.snd) (by
      intro x hx
      obtain ⟨t, ht, rfl⟩ := List.mem_map.1 hx
      exact hp t ht) (by simpa using hB)).2.1
    rw [List.foldl_map] at h
    rw [hr.zero]
    simpa using h
  | false =>
    simp only [rowSum, Bool.false_eq_true, if_false]
    have := hr.sum (r.map Prod.snd) (by
      intro x hx
      obtain ⟨t, ht, rfl⟩ := List.mem_map.1 hx
      exact hp t ht) (by simpa using hB)
    simpa using this

end Verif.FloatTrans
