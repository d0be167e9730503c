import Verif.FloatTrans.Lemmas

/-!
# Rows of normalised products
-/

set_option linter.unusedSectionVars false

namespace Verif.FloatTrans

open Verif.Rounding (Near one_le_pow')
open Verif.Csr (sumAt sumAt_cons sumAt_nil)

variable {K : Type} [Field K] [LinearOrder K] [IsStrictOrderedRing K]
variable {u τ B : K} {o : Ops K}

/-- Exact sum of the stored values. -/
abbrev total (r : Row K) : K := (r.map Prod.snd).sum

theorem total_nonneg (r : Row K) (hp : ∀ e ∈ r, 0 ≤ e.2) : 0 ≤ total r := by
  apply List.sum_nonneg
  intro x hx
  obtain ⟨t, ht, rfl⟩ := List.mem_map.1 hx
  exact hp t ht

theorem le_total (r : Row K) (hp : ∀ e ∈ r, 0 ≤ e.2) (e : Nat × K) (he : e ∈ r) : e.2 ≤ total r := by
  induction r with
  | nil => simp at he
  | cons a r ih =>
    have h0 := total_nonneg r fun e he => hp e (by simp [he])
    have ha := hp a (by simp)
    simp only [total, List.map_cons, List.sum_cons]
    rcases List.mem_cons.1 he with rfl | h
    · simp only [total] at h0; linarith
    · have := ih (fun e he => hp e (by simp [he])) h
      simp only [total] at this
      linarith

/-- Sum of absolute differences between the values of a row and the values after a change
entry by entry. -/
theorem sum_abs_map (r : Row K) (f : K → K) (n : Nat) (hn : (r.map Prod.fst).Nodup)
    (hc : ∀ e ∈ r, e.1 < n) :
    ∑ j ∈ Finset.range n, |sumAt (r.map fun e => (e.1, f e.2)) j - sumAt r j|
      = (r.map fun e => |f e.2 - e.2|).sum := by
  have h : ∀ j, |sumAt (r.map fun e => (e.1, f e.2)) j - sumAt r j|
      = sumAt (r.map fun e => (e.1, |f e.2 - e.2|)) j := by
    intro j
    have hn' : ∀ g : Nat × K → K, ((r.map fun e => (e.1, g e)).map Prod.fst).Nodup := by
      intro g
      rw [List.map_map]
      exact hn
    by_cases hj : ∃ e ∈ r, e.1 = j
    · obtain ⟨e, he, rfl⟩ := hj
      rw [Csr.sumAt_of_mem _ (hn' fun e => f e.2) (e.1, f e.2) (List.mem_map_of_mem (f := fun e => (e.1, f e.2)) he),
        Csr.sumAt_of_mem _ hn e he,
        Csr.sumAt_of_mem _ (hn' fun e => |f e.2 - e.2|) (e.1, |f e.2 - e.2|)
          (List.mem_map_of_mem (f := fun e => (e.1, |f e.2 - e.2|)) he)]
    · have h0 : ∀ e ∈ r, e.1 ≠ j := fun e he h => hj ⟨e, he, h⟩
      have h1 : ∀ g : Nat × K → K, sumAt (r.map fun e => (e.1, g e)) j = 0 := by
        intro g
        apply Csr.sumAt_eq_zero
        intro e he
        obtain ⟨e', he', rfl⟩ := List.mem_map.1 he
        exact h0 e' he'
      rw [h1 fun e => f e.2, h1 fun e => |f e.2 - e.2|, Csr.sumAt_eq_zero r j h0]
      simp
  rw [Finset.sum_congr rfl fun j _ => h j, Csr.sum_sumAt]
  · rw [List.map_map]; rfl
  · intro e he
    obtain ⟨e', he', rfl⟩ := List.mem_map.1 he
    exact hc e' he'

/-- Normalising a row of non-negative numbers whose sum is not too small: the new sum is
one up to `6 (n+2) u`, and the entries change by at most that and by what the sum was off. -/
theorem normRow_spec (hr : Rounds u τ B o) (hu : 0 ≤ u) (hτ : 0 ≤ τ) (c : Bool) (n : Nat)
    (hsmall : 64 * (n + 2) * u ≤ 1) (hn2 : (n : K) * τ ≤ 1) (hB : 2 ≤ B)
    (r : Row K) (hn : (r.map Prod.fst).Nodup) (hc : ∀ e ∈ r, e.1 < n) (hp : ∀ e ∈ r, 0 ≤ e.2)
    (hpos : 0 < total r) (hX : (n + 1) * τ ≤ total r) (hXB : 4 * total r ≤ B) :
    ((normRow o c r).map Prod.fst).Nodup ∧ (∀ e ∈ normRow o c r, e.1 < n) ∧
    (∀ e ∈ normRow o c r, 0 ≤ e.2) ∧
    |total (normRow o c r) - 1| ≤ 6 * (n + 2) * u ∧
    ∑ j ∈ Finset.range n, |sumAt (normRow o c r) j - sumAt r j|
      ≤ 6 * (n + 2) * u + |total r - 1| := by
  set X := total r with hXdef
  have hlen := length_le_of_nodup r n hn hc
  have hlenK : (r.length : K) ≤ n := by exact_mod_cast hlen
  have hn0 : (0 : K) ≤ n := Nat.cast_nonneg n
  have hnu : 0 ≤ (n : K) * u := mul_nonneg hn0 hu
  have hpowup := pow_up hu n (by linarith)
  have hpowlen : (1 + u) ^ r.length ≤ (1 + u) ^ n := pow_le_pow_right₀ (by linarith) hlen
  have hp1 := one_le_pow' hu r.length
  have hnτ0 : 0 ≤ (n : K) * τ := mul_nonneg hn0 hτ
  have hX' : (n : K) * τ + τ ≤ X := by linarith
  have hτX : τ ≤ X := by linarith
  have hnτX : (n : K) * τ ≤ X := by linarith
  have hA : X + r.length * τ ≤ 2 * X := by
    have := mul_le_mul_of_nonneg_right hlenK hτ
    linarith
  have hA0 : 0 ≤ X + r.length * τ := by positivity
  have hpow2 : (1 + u) ^ r.length ≤ 1 + 1 / 32 := by linarith
  have hs := rowSum_near hr hu hτ c r hp (by
    have : (1 + u) ^ r.length * (X + r.length * τ) ≤ (1 + 1 / 32) * (2 * X) :=
      mul_le_mul hpow2 hA hA0 (by norm_num)
    refine le_trans this ?_
    linarith)
  set s := rowSum o c r with hsdef
  have hs1 : |s - X| ≤ 4 * n * u * X := by
    refine le_trans hs ?_
    have h1 : (1 + u) ^ r.length - 1 ≤ 2 * n * u := by linarith
    have h2 := mul_le_mul h1 hA hA0 (by positivity)
    calc _ ≤ 2 * n * u * (2 * X) := h2
      _ = _ := by ring
  have hnu64 : 64 * (n * u) + 128 * u ≤ 1 := by linarith
  have hsX := abs_le.1 hs1
  have hb1 : 4 * n * u * X ≤ 1 / 16 * X := by
    refine mul_le_mul_of_nonneg_right ?_ hpos.le
    linarith
  have hslo : 15 / 16 * X ≤ s := by linarith [hsX.1]
  have hshi : s ≤ 17 / 16 * X := by linarith [hsX.2]
  have hspos : 0 < s := by linarith
  have hiz : o.isZero s = false := by rw [hr.isZero]; simp [hspos.ne']
  set s' := o.div s o.one with hs'def
  have hd := hr.div s 1 one_ne_zero (by rw [div_one, abs_of_pos hspos]; linarith)
  rw [div_one, abs_of_pos hspos, ← hr.one, ← hs'def] at hd
  have hmax : max s τ ≤ 2 * X := max_le (by linarith) (by linarith)
  have hd2 : |s' - s| ≤ 2 * u * X := by
    refine le_trans hd ?_
    have := mul_le_mul_of_nonneg_left hmax hu
    linarith
  have hsX' : |s' - X| ≤ (4 * n + 2) * u * X := by
    have e : s' - X = (s' - s) + (s - X) := by ring
    rw [e]
    have := abs_add_le (s' - s) (s - X)
    have e2 : (4 * n + 2) * u * X = 2 * u * X + 4 * n * u * X := by ring
    rw [e2]
    linarith
  have hsX2 := abs_le.1 hsX'
  have hb2 : (4 * n + 2) * u * X ≤ 1 / 16 * X := by
    refine mul_le_mul_of_nonneg_right ?_ hpos.le
    linarith
  have hs'lo : 15 / 16 * X ≤ s' := by linarith [hsX2.1]
  have hs'pos : 0 < s' := by linarith
  have hq : X / s' ≤ 16 / 15 := by
    rw [div_le_iff₀ hs'pos]
    linarith
  have hq0 : 0 ≤ X / s' := by positivity
  have hq1 : |X / s' - 1| ≤ 16 / 15 * ((4 * n + 2) * u) := by
    have e : X / s' - 1 = (X - s') / s' := by field_simp
    rw [e, abs_div, abs_of_pos hs'pos, div_le_iff₀ hs'pos, abs_sub_comm]
    refine le_trans hsX' ?_
    have h0 : 0 ≤ (4 * n + 2) * u := by positivity
    have h1 := mul_le_mul_of_nonneg_left hs'lo h0
    linarith
  have hnorm : normRow o c r = r.map fun e => (e.1, o.div e.2 s') := by
    unfold normRow
    simp only [← hsdef, hiz, Bool.false_eq_true, if_false, ← hs'def]
  have hdivB : ∀ e ∈ r, e.2 / s' ≤ B := by
    intro e he
    have h1 := le_total r hp e he
    have h2 : e.2 / s' ≤ X / s' := div_le_div_of_nonneg_right h1 hs'pos.le
    linarith
  have hy : ∀ e ∈ r, |o.div e.2 s' - e.2 / s'| ≤ u * (e.2 / s' + τ) := by
    intro e he
    have h0 : 0 ≤ e.2 / s' := div_nonneg (hp e he) hs'pos.le
    have h1 := hr.div e.2 s' hs'pos.ne' (by rw [abs_of_nonneg h0]; exact hdivB e he)
    rw [abs_of_nonneg h0] at h1
    refine le_trans h1 (mul_le_mul_of_nonneg_left ?_ hu)
    exact max_le (by linarith) (by linarith)
  -- sums over the row
  have hsumy : ∀ (l : Row K), (∀ e ∈ l, |o.div e.2 s' - e.2 / s'| ≤ u * (e.2 / s' + τ)) →
      (l.map fun e => |o.div e.2 s' - e.2 / s'|).sum ≤ u * (total l / s' + l.length * τ) := by
    intro l
    induction l with
    | nil => simp [total]
    | cons a l ih =>
      intro h
      have h1 := ih fun e he => h e (by simp [he])
      have h2 := h a (by simp)
      simp only [total, List.map_cons, List.sum_cons, List.length_cons] at h1 ⊢
      push_cast
      rw [add_div]
      have e : u * (a.2 / s' + (l.map Prod.snd).sum / s' + (l.length + 1) * τ)
          = u * (a.2 / s' + τ) + u * ((l.map Prod.snd).sum / s' + l.length * τ) := by ring
      rw [e]
      linarith
  have hsumy' := hsumy r hy
  have hE : u * (total r / s' + r.length * τ) ≤ 3 * u := by
    have h1 : total r / s' + r.length * τ ≤ 3 := by
      have := mul_le_mul_of_nonneg_right hlenK hτ
      have : total r / s' ≤ 16 / 15 := hq
      linarith
    have := mul_le_mul_of_nonneg_left h1 hu
    linarith
  have hscale : ∀ l : Row K, (l.map fun e => e.2 / s').sum = total l / s' := by
    intro l
    induction l with
    | nil => simp [total]
    | cons a l ih => simp only [total, List.map_cons, List.sum_cons, add_div] at ih ⊢; rw [ih]
  have habs : ∀ (l : Row K) (f g : Nat × K → K), |(l.map f).sum - (l.map g).sum|
      ≤ (l.map fun e => |f e - g e|).sum := by
    intro l f g
    induction l with
    | nil => simp
    | cons a l ih =>
      simp only [List.map_cons, List.sum_cons]
      have e : f a + (l.map f).sum - (g a + (l.map g).sum)
          = (f a - g a) + ((l.map f).sum - (l.map g).sum) := by ring
      rw [e]
      have := abs_add_le (f a - g a) ((l.map f).sum - (l.map g).sum)
      linarith
  have hfin : 3 * u + 16 / 15 * ((4 * n + 2) * u) ≤ 6 * (n + 2) * u := by
    have e : 6 * (n + 2) * u - (3 * u + 16 / 15 * ((4 * n + 2) * u))
        = 26 / 15 * (n * u) + 103 / 15 * u := by ring
    have : 0 ≤ 26 / 15 * (n * u) + 103 / 15 * u := by positivity
    linarith
  rw [hnorm]
  refine ⟨?_, ?_, ?_, ?_, ?_⟩
  · rw [List.map_map]; exact hn
  · intro e he
    obtain ⟨e', he', rfl⟩ := List.mem_map.1 he
    exact hc e' he'
  · intro e he
    obtain ⟨e', he', rfl⟩ := List.mem_map.1 he
    exact hr.div_nonneg _ _ (hp e' he') hs'pos (hdivB e' he')
  · have e1 : total (r.map fun e => (e.1, o.div e.2 s')) = (r.map fun e => o.div e.2 s').sum := by
      simp only [total, List.map_map]; rfl
    rw [e1]
    have h1 := habs r (fun e => o.div e.2 s') (fun e => e.2 / s')
    rw [hscale] at h1
    have e2 : (r.map fun e => o.div e.2 s').sum - 1
        = ((r.map fun e => o.div e.2 s').sum - total r / s') + (total r / s' - 1) := by ring
    rw [e2]
    have h2 := abs_add_le ((r.map fun e => o.div e.2 s').sum - total r / s') (total r / s' - 1)
    have h3 : |total r / s' - 1| ≤ 16 / 15 * ((4 * n + 2) * u) := hq1
    linarith
  · rw [sum_abs_map r (fun x => o.div x s') n hn hc]
    have h1 : ∀ l : Row K, (∀ e ∈ l, 0 ≤ e.2) →
        (l.map fun e => |o.div e.2 s' - e.2|).sum
          ≤ (l.map fun e => |o.div e.2 s' - e.2 / s'|).sum + total l * |1 / s' - 1| := by
      intro l
      induction l with
      | nil => simp [total]
      | cons a l ih =>
        intro h
        have h1 := ih fun e he => h e (by simp [he])
        simp only [total, List.map_cons, List.sum_cons] at h1 ⊢
        have e : o.div a.2 s' - a.2 = (o.div a.2 s' - a.2 / s') + a.2 * (1 / s' - 1) := by
          field_simp
          ring
        have h2 := abs_add_le (o.div a.2 s' - a.2 / s') (a.2 * (1 / s' - 1))
        rw [abs_mul, abs_of_nonneg (h a (by simp)), ← e] at h2
        rw [add_mul]
        linarith
    have h2 := h1 r hp
    have h3 : total r * |1 / s' - 1| ≤ |X / s' - 1| + |total r - 1| := by
      have e : total r * |1 / s' - 1| = |X / s' - X| := by
        have e3 : X / s' - X = X * (1 / s' - 1) := by ring
        rw [e3, abs_mul, abs_of_pos hpos]
      rw [e]
      have e2 : X / s' - X = (X / s' - 1) - (X - 1) := by ring
      rw [e2]
      exact abs_sub _ _
    linarith

/-- Bound on the deviation of a row sum from one. -/
def slack (n : Nat) (u : K) : K := 6 * (n + 2) * u

theorem getD_map_row (f : Row K → Row K) (A : Mat K) (i : Nat) (hi : i < A.length) :
    (A.map f).getD i [] = f (A.getD i []) := by
  rw [List.getD_eq_getElem _ _ (by simpa using hi), List.getD_eq_getElem _ _ hi, List.getElem_map]

/-- Sums of the rows of an exact product. -/
theorem sum_prod_row (n : Nat) (a : Nat → K) (M : Nat → Nat → K) :
    ∑ j ∈ Finset.range n, ∑ k ∈ Finset.range n, a k * M k j
      = ∑ k ∈ Finset.range n, a k * ∑ j ∈ Finset.range n, M k j := by
  rw [Finset.sum_comm]
  exact Finset.sum_congr rfl fun k _ => by rw [Finset.mul_sum]

theorem row_total {n : Nat} {A : Mat K} (hA : Square n A) (i : Nat) :
    ∑ j ∈ Finset.range n, val A i j = total (A.getD i []) := by
  unfold val
  rw [Csr.sum_sumAt]
  exact (row_square hA i).2

/-- One row of the normalised product of two matrices whose rows nearly sum to one. -/
theorem step_row (hr : Rounds u τ B o) (hu : 0 ≤ u) (hτ : 0 ≤ τ) (c : Bool) (n : Nat)
    (hsmall : 64 * (n + 2) * u ≤ 1) (hn2 : ((n : K) + 1) ^ 2 * τ ≤ 1 / 2) (hB : 8 ≤ B)
    {A M : Mat K} (hA : Square n A) (hA0 : NonNeg A) (hA1 : RowsSumToOne n (slack n u) A)
    (hM : Square n M) (hM0 : NonNeg M) (hM1 : RowsSumToOne n (slack n u) M) (i : Nat) (hi : i < n) :
    let y := normRow o c (rowProd o (A.getD i []) M)
    (y.map Prod.fst).Nodup ∧ (∀ e ∈ y, e.1 < n) ∧ (∀ e ∈ y, 0 ≤ e.2) ∧
    |total y - 1| ≤ slack n u ∧
    ∑ j ∈ Finset.range n, |sumAt y j - ∑ k ∈ Finset.range n, val A i k * val M k j|
      ≤ 27 * (n + 2) * u := by
  intro y
  set r := A.getD i [] with hrdef
  have hn0 : (0 : K) ≤ n := Nat.cast_nonneg n
  have hnu : 0 ≤ (n : K) * u := mul_nonneg hn0 hu
  have hnu64 : 64 * (n * u) + 128 * u ≤ 1 := by linarith
  have hrs := row_square hA i
  have hrn := row_nonneg hA0 i
  have hε : slack n u = 6 * (n * u) + 12 * u := by unfold slack; ring
  have hε0 : 0 ≤ slack n u := by rw [hε]; positivity
  have hε1 : slack n u ≤ 6 / 64 := by rw [hε]; linarith
  -- the exact row
  set x : Nat → K := fun j => ∑ k ∈ Finset.range n, val A i k * val M k j with hx
  have hval : ∀ k, sumAt r k = val A i k := fun k => rfl
  have ha0 : ∀ k, 0 ≤ val A i k := fun k => sumAt_nonneg _ hrn k
  have hm0 : ∀ k j, 0 ≤ val M k j := fun k j => sumAt_nonneg _ (row_nonneg hM0 k) j
  have hx0 : ∀ j, 0 ≤ x j := fun j => Finset.sum_nonneg fun k _ => mul_nonneg (ha0 k) (hm0 k j)
  set S := ∑ j ∈ Finset.range n, x j with hS
  have hSA : ∑ k ∈ Finset.range n, val A i k ≤ 1 + slack n u := by
    have := (abs_le.1 (hA1 i hi)).2
    linarith
  have hS1 : |S - 1| ≤ 2.1 * slack n u := by
    have e : S - 1 = ∑ k ∈ Finset.range n, val A i k * (∑ j ∈ Finset.range n, val M k j - 1)
        + (∑ k ∈ Finset.range n, val A i k - 1) := by
      rw [hS, hx, sum_prod_row]
      simp only [mul_sub, mul_one, Finset.sum_sub_distrib]
      ring
    have h1 : |∑ k ∈ Finset.range n, val A i k * (∑ j ∈ Finset.range n, val M k j - 1)|
        ≤ (1 + slack n u) * slack n u := by
      refine le_trans (Finset.abs_sum_le_sum_abs _ _) ?_
      have h2 : ∀ k ∈ Finset.range n,
          |val A i k * (∑ j ∈ Finset.range n, val M k j - 1)| ≤ val A i k * slack n u := by
        intro k hk
        rw [abs_mul, abs_of_nonneg (ha0 k)]
        exact mul_le_mul_of_nonneg_left (hM1 k (Finset.mem_range.1 hk)) (ha0 k)
      refine le_trans (Finset.sum_le_sum h2) ?_
      rw [← Finset.sum_mul]
      exact mul_le_mul_of_nonneg_right hSA hε0
    rw [e]
    have h2 := abs_add_le (∑ k ∈ Finset.range n, val A i k * (∑ j ∈ Finset.range n, val M k j - 1))
      (∑ k ∈ Finset.range n, val A i k - 1)
    have h3 := hA1 i hi
    have h4 : slack n u * slack n u ≤ 6 / 64 * slack n u := mul_le_mul_of_nonneg_right hε1 hε0
    linarith
  have hSb := abs_le.1 hS1
  have hSle : S ≤ 1.2 := by linarith [hSb.2]
  have hxS : ∀ j < n, x j ≤ S := fun j hj =>
    Finset.single_le_sum (f := x) (fun k _ => hx0 k) (Finset.mem_range.2 hj)
  have hpowup := pow_up hu n (by linarith)
  have hp1 := one_le_pow' hu n
  have hnτ : (n : K) * τ ≤ 1 / 2 ∧ (n : K) * (n * τ) ≤ 1 / 2 ∧ ((n : K) + 1) * τ ≤ 1 / 2 := by
    have e : ((n : K) + 1) ^ 2 * τ = n * (n * τ) + n * τ + (n * τ + τ) := by ring
    have h1 : 0 ≤ (n : K) * τ := mul_nonneg hn0 hτ
    have h2 : 0 ≤ (n : K) * (n * τ) := mul_nonneg hn0 h1
    rw [e] at hn2
    refine ⟨by linarith, by linarith, by linarith⟩
  -- the product row
  obtain ⟨p1, p2, p3, p4⟩ := rowProd_spec hr hu hτ hM hM0 r hrs.1 hrs.2 hrn (by linarith) (by
    intro j hj
    have h1 : ∑ k ∈ Finset.range n, sumAt r k * val M k j + n * τ ≤ 2 := by
      have := hxS j hj
      have e : ∑ k ∈ Finset.range n, sumAt r k * val M k j = x j := rfl
      rw [e]
      linarith [hnτ.1]
    have h2 : (1 + u) ^ n ≤ 2 := by linarith
    have h3 : 0 ≤ ∑ k ∈ Finset.range n, sumAt r k * val M k j + n * τ :=
      add_nonneg (hx0 j) (mul_nonneg hn0 hτ)
    have := mul_le_mul h2 h1 h3 (by norm_num)
    linarith)
  set p := rowProd o r M with hpdef
  have hp4 : ∀ j, |sumAt p j - x j| ≤ ((1 + u) ^ n - 1) * (x j + n * τ) := p4
  have hD : ∑ j ∈ Finset.range n, |sumAt p j - x j| ≤ 4 * (n * u) := by
    refine le_trans (Finset.sum_le_sum fun j _ => hp4 j) ?_
    rw [← Finset.mul_sum, Finset.sum_add_distrib, Finset.sum_const, Finset.card_range, nsmul_eq_mul]
    have h1 : (1 + u) ^ n - 1 ≤ 2 * (n * u) := by linarith
    have h2 : S + n * (n * τ) ≤ 2 := by linarith [hnτ.2.1]
    have h3 : 0 ≤ S + n * (n * τ) :=
      add_nonneg (Finset.sum_nonneg fun j _ => hx0 j) (mul_nonneg hn0 (mul_nonneg hn0 hτ))
    have := mul_le_mul h1 h2 h3 (by positivity)
    calc _ ≤ 2 * (n * u) * 2 := this
      _ = _ := by ring
  have htot : total p = ∑ j ∈ Finset.range n, sumAt p j := (Csr.sum_sumAt p n p2).symm
  have hT : |total p - S| ≤ 4 * (n * u) := by
    rw [htot, hS, ← Finset.sum_sub_distrib]
    exact le_trans (Finset.abs_sum_le_sum_abs _ _) hD
  have hT1 : |total p - 1| ≤ 4 * (n * u) + 2.1 * slack n u := by
    have e : total p - 1 = (total p - S) + (S - 1) := by ring
    rw [e]
    have := abs_add_le (total p - S) (S - 1)
    linarith
  have hTb := abs_le.1 hT1
  have hlo : 1 / 2 ≤ total p := by linarith [hTb.1]
  have hhi : total p ≤ 3 / 2 := by linarith [hTb.2]
  obtain ⟨q1, q2, q3, q4, q5⟩ := normRow_spec hr hu hτ c n hsmall (by linarith [hnτ.1]) (by linarith)
    p p1 p2 p3 (by linarith) (by linarith [hnτ.2.2]) (by linarith)
  refine ⟨q1, q2, q3, q4, ?_⟩
  have h1 : ∀ j, |sumAt y j - x j| ≤ |sumAt y j - sumAt p j| + |sumAt p j - x j| := by
    intro j
    have e : sumAt y j - x j = (sumAt y j - sumAt p j) + (sumAt p j - x j) := by ring
    rw [e]
    exact abs_add_le _ _
  have h2 := Finset.sum_le_sum fun j (_ : j ∈ Finset.range n) => h1 j
  rw [Finset.sum_add_distrib] at h2
  have h3 : 6 * (n + 2) * u = slack n u := rfl
  rw [h3] at q5
  refine le_trans h2 ?_
  have e : 27 * (n + 2) * u = 27 * (n * u) + 54 * u := by ring
  rw [e]
  have : ∑ j ∈ Finset.range n, |sumAt y j - sumAt p j| ≤ slack n u + |total p - 1| := q5
  rw [hε] at *
  linarith

/-- One step of the loop. -/
theorem step_spec (hr : Rounds u τ B o) (hu : 0 ≤ u) (hτ : 0 ≤ τ) (c : Bool) (n : Nat)
    (hsmall : 64 * (n + 2) * u ≤ 1) (hn2 : ((n : K) + 1) ^ 2 * τ ≤ 1 / 2) (hB : 8 ≤ B)
    {A M : Mat K} (hA : Square n A) (hA0 : NonNeg A) (hA1 : RowsSumToOne n (slack n u) A)
    (hM : Square n M) (hM0 : NonNeg M) (hM1 : RowsSumToOne n (slack n u) M) :
    let Y := normalize o c (matmul o A M)
    Square n Y ∧ NonNeg Y ∧ RowsSumToOne n (slack n u) Y ∧
    ∀ i < n, ∑ j ∈ Finset.range n, |val Y i j - ∑ k ∈ Finset.range n, val A i k * val M k j|
      ≤ 27 * (n + 2) * u := by
  intro Y
  have hstep := fun i hi => step_row hr hu hτ c n hsmall hn2 hB hA hA0 hA1 hM hM0 hM1 i hi
  have hY : Y = A.map fun r => normRow o c (rowProd o r M) := by
    simp only [Y, normalize, matmul, List.map_map]
    rfl
  have hrow : ∀ i < n, Y.getD i [] = normRow o c (rowProd o (A.getD i []) M) := by
    intro i hi
    rw [hY, getD_map_row _ _ _ (by rw [hA.1]; exact hi)]
  have hmem : ∀ y ∈ Y, ∃ i < n, y = normRow o c (rowProd o (A.getD i []) M) := by
    intro y hy
    rw [hY] at hy
    obtain ⟨r, hrA, rfl⟩ := List.mem_map.1 hy
    obtain ⟨i, hi, rfl⟩ := List.mem_iff_getElem.1 hrA
    exact ⟨i, by rw [← hA.1]; exact hi, by rw [List.getD_eq_getElem _ _ hi]⟩
  have hSq : Square n Y := by
    refine ⟨by rw [hY, List.length_map]; exact hA.1, fun y hy => ?_⟩
    obtain ⟨i, hi, rfl⟩ := hmem y hy
    exact ⟨(hstep i hi).1, (hstep i hi).2.1⟩
  refine ⟨hSq, fun y hy => ?_, fun i hi => ?_, fun i hi => ?_⟩
  · obtain ⟨i, hi, rfl⟩ := hmem y hy
    exact (hstep i hi).2.2.1
  · rw [row_total hSq, hrow i hi]
    exact (hstep i hi).2.2.2.1
  · have := (hstep i hi).2.2.2.2
    unfold val at this ⊢
    rw [hrow i hi]
    exact this

end Verif.FloatTrans
