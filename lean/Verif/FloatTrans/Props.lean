import Verif.FloatTrans.Double

/-!
# C106: cumulative transition matrices in machine arithmetic

`Rounds u τ B o` are the assumptions on the machine's arithmetic `o` (unit roundoff `u`,
underflow below `τ`, overflow above `B`); `ieee_rounds` shows that double precision meets
them.
-/

set_option linter.unusedSectionVars false

namespace Verif.FloatTrans

open Verif.Csr (sumAt)

variable {K : Type} [Field K] [LinearOrder K] [IsStrictOrderedRing K]
variable {u τ B : K} {o : Ops K}

/-- A square matrix of non-negative numbers whose rows sum to one up to `ε`. -/
def NearlyStoch (n : Nat) (ε : K) (A : Mat K) : Prop :=
  Square n A ∧ NonNeg A ∧ RowsSumToOne n ε A

/-- The inter-event matrices in the order in which they are multiplied. -/
def ordered {α : Type} (reverse : Bool) (l : List α) : List α := if reverse then l.reverse else l

theorem loop_stoch (hr : Rounds u τ B o) (hu : 0 ≤ u) (hτ : 0 ≤ τ) (c : Bool) (n : Nat)
    (hsmall : 64 * (n + 2) * u ≤ 1) (hn2 : ((n : K) + 1) ^ 2 * τ ≤ 1 / 2) (hB : 8 ≤ B)
    (Ts : List (Mat K)) (hT : ∀ T ∈ Ts, NearlyStoch n (6 * (n + 2) * u) T) (last : Mat K)
    (hl : NearlyStoch n (6 * (n + 2) * u) last) :
    ∀ U ∈ loop o c last Ts, NearlyStoch n (6 * (n + 2) * u) U := by
  induction Ts generalizing last with
  | nil => simp [loop]
  | cons T Ts ih =>
    have hT0 := hT T (by simp)
    obtain ⟨s1, s2, s3, _⟩ := step_spec hr hu hτ c n hsmall hn2 hB hl.1 hl.2.1 hl.2.2
      hT0.1 hT0.2.1 hT0.2.2
    intro U hU
    simp only [loop, List.mem_cons] at hU
    rcases hU with rfl | hU
    · exact ⟨s1, s2, s3⟩
    · exact ih (fun T hT' => hT T (by simp [hT'])) _ ⟨s1, s2, s3⟩ U hU

/-- C106: However many inter-event matrices are multiplied, in machine arithmetic every
cumulative transition matrix has non-negative entries and rows that sum to one up to
`6 (n+2) u`, for both backends and both directions of time.  The bound does not depend on
the number of events. -/
theorem C106_no_drift (hr : Rounds u τ B o) (hu : 0 ≤ u) (hτ : 0 ≤ τ) (c reverse : Bool) (n : Nat)
    (hsmall : 64 * (n + 2) * u ≤ 1) (hn2 : ((n : K) + 1) ^ 2 * τ ≤ 1 / 2) (hB : 8 ≤ B)
    (Ts : List (Mat K)) (hne : Ts ≠ []) (hT : ∀ T ∈ Ts, NearlyStoch n (6 * (n + 2) * u) T) :
    ∃ Us, cumulative o c reverse Ts = some Us ∧ Us.length = Ts.length ∧
      ∀ U ∈ Us, NearlyStoch n (6 * (n + 2) * u) U := by
  have hlen : ∀ (l : List (Mat K)) (a : Mat K), (loop o c a l).length = l.length := by
    intro l
    induction l with
    | nil => intro a; rfl
    | cons T l ih => intro a; simp [loop, ih]
  have hT' : ∀ T ∈ (if reverse then Ts.reverse else Ts), NearlyStoch n (6 * (n + 2) * u) T := by
    intro T h
    apply hT
    cases reverse <;> simpa using h
  have hne' : (if reverse then Ts.reverse else Ts) ≠ [] := by
    cases reverse <;> simpa using hne
  have hl' : (if reverse then Ts.reverse else Ts).length = Ts.length := by
    cases reverse <;> simp
  unfold cumulative
  generalize (if reverse then Ts.reverse else Ts) = l at hT' hne' hl'
  cases l with
  | nil => exact absurd rfl hne'
  | cons T l =>
    refine ⟨T :: loop o c T l, rfl, by rw [← hl']; simp [hlen], ?_⟩
    intro U hU
    rcases List.mem_cons.1 hU with rfl | hU
    · exact hT' _ (by simp)
    · exact loop_stoch hr hu hτ c n hsmall hn2 hB l (fun T h => hT' T (by simp [h])) T
        (hT' T (by simp)) U hU

/-- C106: A matrix of non-negative numbers that has just been normalised has rows that sum to
one up to `6 (n+2) u`, so the inter-event matrices meet the assumption of `C106_no_drift`:
they are normalised when they are computed. -/
theorem C106_normalised (hr : Rounds u τ B o) (hu : 0 ≤ u) (hτ : 0 ≤ τ) (c : Bool) (n : Nat)
    (hsmall : 64 * (n + 2) * u ≤ 1) (hn2 : (n : K) * τ ≤ 1) (hB : 2 ≤ B)
    (A : Mat K) (hA : Square n A) (hA0 : NonNeg A)
    (hrow : ∀ i < n, 0 < ∑ j ∈ Finset.range n, val A i j ∧
      (n + 1) * τ ≤ ∑ j ∈ Finset.range n, val A i j ∧ 4 * ∑ j ∈ Finset.range n, val A i j ≤ B) :
    NearlyStoch n (6 * (n + 2) * u) (normalize o c A) := by
  have hstep : ∀ i (hi : i < n), _ := fun i hi =>
    normRow_spec hr hu hτ c n hsmall hn2 hB (A.getD i []) (row_square hA i).1 (row_square hA i).2
      (row_nonneg hA0 i) (by rw [← row_total hA]; exact (hrow i hi).1)
      (by rw [← row_total hA]; exact (hrow i hi).2.1) (by rw [← row_total hA]; exact (hrow i hi).2.2)
  have hgd : ∀ i < n, (normalize o c A).getD i [] = normRow o c (A.getD i []) := fun i hi =>
    getD_map_row _ _ _ (by rw [hA.1]; exact hi)
  have hmem : ∀ y ∈ normalize o c A, ∃ i < n, y = normRow o c (A.getD i []) := by
    intro y hy
    obtain ⟨r, hrA, rfl⟩ := List.mem_map.1 hy
    obtain ⟨i, hi, rfl⟩ := List.mem_iff_getElem.1 hrA
    exact ⟨i, by rw [← hA.1]; exact hi, by rw [List.getD_eq_getElem _ _ hi]⟩
  have hSq : Square n (normalize o c A) := by
    refine ⟨by simp [normalize, hA.1], fun y hy => ?_⟩
    obtain ⟨i, hi, rfl⟩ := hmem y hy
    exact ⟨(hstep i hi).1, (hstep i hi).2.1⟩
  refine ⟨hSq, fun y hy => ?_, fun i hi => ?_⟩
  · obtain ⟨i, hi, rfl⟩ := hmem y hy
    exact (hstep i hi).2.2.1
  · rw [row_total hSq, hgd i hi]
    exact (hstep i hi).2.2.2.1

/-- One step: distance to the exact product. -/
theorem step_close (hr : Rounds u τ B o) (hu : 0 ≤ u) (hτ : 0 ≤ τ) (c : Bool) (n : Nat)
    (hsmall : 64 * (n + 2) * u ≤ 1) (hn2 : ((n : K) + 1) ^ 2 * τ ≤ 1 / 2) (hB : 8 ≤ B)
    {A T : Mat K} (hA : NearlyStoch n (6 * (n + 2) * u) A) (hT : NearlyStoch n (6 * (n + 2) * u) T)
    {P M : Nat → Nat → K} (hM : Trans.Stoch n M) {e δ : K} (hAP : Close n e A P)
    (hTM : Close n δ T M) :
    Close n (e + (1 + 6 * (n + 2) * u) * δ + 27 * (n + 2) * u) (normalize o c (matmul o A T))
      (Trans.mul n P M) := by
  obtain ⟨_, _, _, s4⟩ := step_spec hr hu hτ c n hsmall hn2 hB hA.1 hA.2.1 hA.2.2 hT.1 hT.2.1 hT.2.2
  intro i hi
  have h4 := s4 i hi
  set Y := normalize o c (matmul o A T) with hY
  have ha0 : ∀ k, 0 ≤ val A i k := fun k => sumAt_nonneg _ (row_nonneg hA.2.1 i) k
  have hδ : 0 ≤ δ := le_trans (Finset.sum_nonneg fun j _ => abs_nonneg _) (hTM i hi)
  have hsumA : ∑ k ∈ Finset.range n, val A i k ≤ 1 + 6 * (n + 2) * u := by
    have := (abs_le.1 (hA.2.2 i hi)).2
    linarith
  have h1 : ∀ j ∈ Finset.range n, |val Y i j - Trans.mul n P M i j|
      ≤ |val Y i j - ∑ k ∈ Finset.range n, val A i k * val T k j|
        + (∑ k ∈ Finset.range n, |val A i k - P i k| * M k j
          + ∑ k ∈ Finset.range n, val A i k * |val T k j - M k j|) := by
    intro j hj
    have hj' := Finset.mem_range.1 hj
    have e1 : val Y i j - Trans.mul n P M i j
        = (val Y i j - ∑ k ∈ Finset.range n, val A i k * val T k j)
          + (∑ k ∈ Finset.range n, (val A i k - P i k) * M k j
            + ∑ k ∈ Finset.range n, val A i k * (val T k j - M k j)) := by
      unfold Trans.mul
      simp only [sub_mul, mul_sub, Finset.sum_sub_distrib]
      ring
    rw [e1]
    refine le_trans (abs_add_le _ _) (add_le_add le_rfl (le_trans (abs_add_le _ _) (add_le_add ?_ ?_)))
    · refine le_trans (Finset.abs_sum_le_sum_abs _ _) (Finset.sum_le_sum fun k hk => ?_)
      rw [abs_mul, abs_of_nonneg ((hM k (Finset.mem_range.1 hk)).1 j hj')]
    · refine le_trans (Finset.abs_sum_le_sum_abs _ _) (Finset.sum_le_sum fun k hk => ?_)
      rw [abs_mul, abs_of_nonneg (ha0 k)]
  refine le_trans (Finset.sum_le_sum h1) ?_
  rw [Finset.sum_add_distrib, Finset.sum_add_distrib]
  have h2 : ∑ j ∈ Finset.range n, ∑ k ∈ Finset.range n, |val A i k - P i k| * M k j ≤ e := by
    rw [sum_prod_row]
    refine le_trans (le_of_eq ?_) (hAP i hi)
    refine Finset.sum_congr rfl fun k hk => ?_
    rw [(hM k (Finset.mem_range.1 hk)).2, mul_one]
  have h3 : ∑ j ∈ Finset.range n, ∑ k ∈ Finset.range n, val A i k * |val T k j - M k j|
      ≤ (1 + 6 * (n + 2) * u) * δ := by
    rw [sum_prod_row n (fun k => val A i k) fun k j => |val T k j - M k j|]
    refine le_trans (Finset.sum_le_sum (g := fun k => val A i k * δ) fun k hk =>
      mul_le_mul_of_nonneg_left (hTM k (Finset.mem_range.1 hk)) (ha0 k)) ?_
    rw [← Finset.sum_mul]
    exact mul_le_mul_of_nonneg_right hsumA hδ
  linarith

theorem close_congr {n : Nat} {e : K} {A : Mat K} {P Q : Nat → Nat → K} (h : Close n e A P)
    (hPQ : Trans.EqOn n Q P) : Close n e A Q := by
  intro i hi
  refine le_trans (le_of_eq (Finset.sum_congr rfl fun j hj => ?_)) (h i hi)
  rw [hPQ i hi j (Finset.mem_range.1 hj)]

theorem loop_close (hr : Rounds u τ B o) (hu : 0 ≤ u) (hτ : 0 ≤ τ) (c : Bool) (n : Nat)
    (hsmall : 64 * (n + 2) * u ≤ 1) (hn2 : ((n : K) + 1) ^ 2 * τ ≤ 1 / 2) (hB : 8 ≤ B) (δ : K)
    (l : List (Mat K × (Nat → Nat → K)))
    (hl : ∀ p ∈ l, NearlyStoch n (6 * (n + 2) * u) p.1 ∧ Trans.Stoch n p.2 ∧ Close n δ p.1 p.2)
    (pre : List (Nat → Nat → K)) (last : Mat K) (hlast : NearlyStoch n (6 * (n + 2) * u) last) (e : K)
    (he : Close n e last (Trans.prod n pre)) (k : Nat) (U : Mat K)
    (hU : (loop o c last (l.map Prod.fst))[k]? = some U) :
    Close n (e + (k + 1) * ((1 + 6 * (n + 2) * u) * δ + 27 * (n + 2) * u)) U
      (Trans.prod n (pre ++ (l.map Prod.snd).take (k + 1))) := by
  induction l generalizing pre last e k with
  | nil => simp [loop] at hU
  | cons p l ih =>
    have hp := hl p (by simp)
    have hstep := step_close hr hu hτ c n hsmall hn2 hB hlast hp.1 hp.2.1 he hp.2.2
    have hstep2 := close_congr hstep (Trans.prod_append n pre p.2)
    obtain ⟨s1, s2, s3, _⟩ := step_spec hr hu hτ c n hsmall hn2 hB hlast.1 hlast.2.1 hlast.2.2
      hp.1.1 hp.1.2.1 hp.1.2.2
    cases k with
    | zero =>
      simp only [List.map_cons, loop, List.getElem?_cons_zero, Option.some.injEq] at hU
      subst hU
      intro i hi
      refine le_trans (hstep2 i hi) (le_of_eq ?_)
      push_cast
      ring
    | succ k =>
      simp only [List.map_cons, loop, List.getElem?_cons_succ] at hU
      have := ih (fun q hq => hl q (by simp [hq])) (pre ++ [p.2]) _ ⟨s1, s2, s3⟩ _ hstep2 k hU
      have e1 : pre ++ ((p :: l).map Prod.snd).take (k + 1 + 1)
          = pre ++ [p.2] ++ (l.map Prod.snd).take (k + 1) := by
        simp
      rw [e1]
      intro i hi
      refine le_trans (this i hi) (le_of_eq ?_)
      push_cast
      ring

/-- C106: The errors add up at most linearly.  If each inter-event matrix stored by the
machine differs from an exact stochastic matrix by at most `δ` (sum of the absolute
differences in a row), then the `k`-th cumulative matrix differs from the exact product of
the first `k + 1` matrices, in the chosen direction of time, by at most `k + 1` times
`(1 + 6 (n+2) u) δ + 27 (n+2) u`. -/
theorem C106_error_linear (hr : Rounds u τ B o) (hu : 0 ≤ u) (hτ : 0 ≤ τ) (c reverse : Bool) (n : Nat)
    (hsmall : 64 * (n + 2) * u ≤ 1) (hn2 : ((n : K) + 1) ^ 2 * τ ≤ 1 / 2) (hB : 8 ≤ B) (δ : K)
    (Ts : List (Mat K)) (Ms : List (Nat → Nat → K)) (hlen : Ts.length = Ms.length)
    (hT : ∀ T ∈ Ts, NearlyStoch n (6 * (n + 2) * u) T) (hM : ∀ M ∈ Ms, Trans.Stoch n M)
    (hδ : ∀ (k : Nat) T M, Ts[k]? = some T → Ms[k]? = some M → Close n δ T M)
    (Us : List (Mat K)) (hUs : cumulative o c reverse Ts = some Us) (k : Nat) (U : Mat K)
    (hU : Us[k]? = some U) :
    Close n ((k + 1) * ((1 + 6 * (n + 2) * u) * δ + 27 * (n + 2) * u)) U
      (Trans.prod n ((ordered reverse Ms).take (k + 1))) := by
  have hn0 : (0 : K) ≤ n := Nat.cast_nonneg n
  -- pairs of stored and exact matrices, in order
  have hpairs : ∀ (Ts : List (Mat K)) (Ms : List (Nat → Nat → K)), Ts.length = Ms.length →
      ∀ p ∈ Ts.zip Ms, p.1 ∈ Ts ∧ p.2 ∈ Ms ∧ ∃ k : Nat, Ts[k]? = some p.1 ∧ Ms[k]? = some p.2 := by
    intro Ts Ms _ p hp
    obtain ⟨k, hk, rfl⟩ := List.mem_iff_getElem.1 hp
    rw [List.length_zip] at hk
    have h1 : k < Ts.length := by omega
    have h2 : k < Ms.length := by omega
    rw [List.getElem_zip]
    exact ⟨List.getElem_mem h1, List.getElem_mem h2, k, by simp [h1], by simp [h2]⟩
  set l := (ordered reverse (Ts.zip Ms)) with hl
  have hl1 : ∀ p ∈ l, NearlyStoch n (6 * (n + 2) * u) p.1 ∧ Trans.Stoch n p.2 ∧ Close n δ p.1 p.2 := by
    intro p hp
    have hp' : p ∈ Ts.zip Ms := by
      rw [hl] at hp
      unfold ordered at hp
      cases reverse <;> simpa using hp
    obtain ⟨h1, h2, k, h3, h4⟩ := hpairs Ts Ms hlen p hp'
    exact ⟨hT _ h1, hM _ h2, hδ k _ _ h3 h4⟩
  have hfst : l.map Prod.fst = (if reverse then Ts.reverse else Ts) := by
    rw [hl]
    unfold ordered
    cases reverse <;> simp [List.map_fst_zip, hlen.le]
  have hsnd : l.map Prod.snd = ordered reverse Ms := by
    rw [hl]
    unfold ordered
    cases reverse <;> simp [List.map_snd_zip, hlen.ge]
  rw [← hsnd]
  unfold cumulative at hUs
  rw [← hfst] at hUs
  cases hl0 : l with
  | nil => rw [hl0] at hUs; simp at hUs
  | cons p rest =>
    rw [hl0] at hUs hl1
    simp only [List.map_cons, Option.some.injEq] at hUs
    subst hUs
    have hp := hl1 p (by simp)
    have hδ0 : 0 < n → 0 ≤ δ := fun hn =>
      le_trans (Finset.sum_nonneg fun j _ => abs_nonneg _) (hp.2.2 0 hn)
    have hfirst : Close n δ p.1 (Trans.prod n [p.2]) :=
      close_congr hp.2.2 (Trans.mul_eye p.2)
    cases k with
    | zero =>
      simp only [List.getElem?_cons_zero, Option.some.injEq] at hU
      subst hU
      intro i hi
      refine le_trans (hfirst i hi) ?_
      have h0 := hδ0 (by omega)
      have h1 : 0 ≤ 6 * (n + 2) * u * δ := by positivity
      have h2 : 0 ≤ 27 * (n + 2) * u := by positivity
      push_cast
      linarith
    | succ k =>
      simp only [List.getElem?_cons_succ] at hU
      have := loop_close hr hu hτ c n hsmall hn2 hB δ rest (fun q hq => hl1 q (by simp [hq])) [p.2] p.1
        hp.1 δ hfirst k U hU
      intro i hi
      have h0 := hδ0 (by omega)
      have h1 : 0 ≤ 6 * (n + 2) * u * δ := by positivity
      have h2 : 0 ≤ 27 * (n + 2) * u := by positivity
      refine le_trans (this i hi) ?_
      push_cast
      linarith

/-- C106: Keeping only the last matrix (`save_intermediate=False`) gives the last one of the
saved matrices. -/
theorem C106_final (o : Ops K) (c reverse : Bool) (Ts : List (Mat K)) :
    final o c reverse Ts = (cumulative o c reverse Ts).bind List.getLast? := by
  unfold final cumulative
  cases (if reverse then Ts.reverse else Ts) with
  | nil => rfl
  | cons T l =>
    simp only [Option.bind_some]
    induction l generalizing T with
    | nil => rfl
    | cons T' l ih =>
      rw [List.foldl_cons, ih]
      simp [loop, List.getLast?_cons_cons]

/-- C106 for double precision: for up to a billion nodes, whatever happens on overflow, the
rows of all cumulative matrices sum to one up to `10^(-5)`, and for a thousand nodes up to
`10^(-12)`. -/
theorem C106_double (ovf : ℚ → ℚ) (c reverse : Bool) (n : Nat) (hn : n ≤ 10 ^ 9) (Ts : List (Mat ℚ))
    (hne : Ts ≠ []) (hT : ∀ T ∈ Ts, NearlyStoch n (6 * (n + 2) * unit) T) :
    ∃ Us, cumulative (ieee ovf) c reverse Ts = some Us ∧ Us.length = Ts.length ∧
      ∀ U ∈ Us, NearlyStoch n (6 * (n + 2) * unit) U ∧ RowsSumToOne n (1 / 10 ^ 5) U ∧
        (n ≤ 1000 → RowsSumToOne n (1 / 10 ^ 12) U) := by
  have hnK : (n : ℚ) ≤ 10 ^ 9 := by exact_mod_cast hn
  have hn0 : (0 : ℚ) ≤ n := Nat.cast_nonneg n
  obtain ⟨Us, h1, h2, h3⟩ := C106_no_drift (ieee_rounds ovf) unit_nonneg tiny_nonneg c reverse n
    (by unfold unit; norm_num; linarith) (by
      unfold tiny
      have h : ((n : ℚ) + 1) ^ 2 ≤ 2 ^ 100 := by nlinarith
      have h' : (2 : ℚ) ^ 100 * (1 / 2 ^ 1022) ≤ 1 / 2 := by
        rw [mul_one_div, div_le_iff₀ (by positivity)]
        have e : (1 : ℚ) / 2 * 2 ^ 1022 = 2 ^ 921 * 2 ^ 100 := by
          rw [← pow_add, show (1022 : Nat) = 1 + 1021 from rfl, pow_add]
          norm_num only [pow_one]
          ring_nf
        rw [e]
        exact le_mul_of_one_le_left (by positivity) (one_le_pow₀ (by norm_num))
      exact le_trans (mul_le_mul_of_nonneg_right h (by positivity)) h')
    (by
      unfold huge
      have : (2 : ℚ) ^ 3 ≤ 2 ^ 1023 := pow_le_pow_right₀ (by norm_num) (by norm_num)
      exact le_trans (by norm_num) this) Ts hne hT
  refine ⟨Us, h1, h2, fun U hU => ⟨h3 U hU, fun i hi => ?_, fun hk i hi => ?_⟩⟩
  · refine le_trans ((h3 U hU).2.2 i hi) ?_
    unfold unit
    norm_num
    linarith
  · have hk' : (n : ℚ) ≤ 1000 := by exact_mod_cast hk
    refine le_trans ((h3 U hU).2.2 i hi) ?_
    unfold unit
    norm_num
    linarith

/-! ### A case that meets the assumptions -/

/-- A 2 by 2 matrix: the first row as stored in double precision for 1/3 and 2/3. -/
def exT : Mat ℚ := [[(0, 6004799503160661 / 2 ^ 54), (1, 6004799503160661 / 2 ^ 53)], [(1, 1)]]

theorem exT_stoch : NearlyStoch 2 (6 * ((2 : Nat) + 2) * unit) exT := by
  refine ⟨⟨rfl, ?_⟩, ?_, ?_⟩
  · unfold exT; decide
  · unfold NonNeg exT
    intro r hr e he
    simp only [List.mem_cons, List.not_mem_nil, or_false] at hr
    rcases hr with rfl | rfl
    · simp only [List.mem_cons, List.not_mem_nil, or_false] at he
      rcases he with rfl | rfl <;> norm_num
    · simp only [List.mem_cons, List.not_mem_nil, or_false] at he
      subst he
      norm_num
  · intro i hi
    unfold unit
    interval_cases i <;>
      simp [Finset.sum_range_succ, val, exT, sumAt, abs_le] <;> norm_num

example : ∃ Us, cumulative (ieee id) true true [exT, exT, exT] = some Us ∧ Us.length = 3 ∧
    ∀ U ∈ Us, RowsSumToOne 2 (1 / 10 ^ 12) U := by
  obtain ⟨Us, h1, h2, h3⟩ := C106_double id true true 2 (by norm_num) [exT, exT, exT] (by simp) (by
    intro T hT
    simp only [List.mem_cons, List.not_mem_nil, or_false, or_self] at hT
    rw [hT]
    exact exT_stoch)
  exact ⟨Us, h1, h2, fun U hU => (h3 U hU).2.2 (by norm_num)⟩

/-- The exact matrix that `exT` approximates. -/
def exM : Nat → Nat → ℚ := fun i j => if i = 0 then (if j = 0 then 1 / 3 else 2 / 3) else (if j = 1 then 1 else 0)

example : Trans.Stoch 2 exM ∧ Close 2 unit exT exM := by
  constructor
  · intro i hi
    interval_cases i <;> refine ⟨fun j hj => ?_, ?_⟩
    · interval_cases j <;> norm_num [exM]
    · simp [exM, Finset.sum_range_succ]; norm_num
    · interval_cases j <;> simp [exM]
    · simp [exM, Finset.sum_range_succ]
  · intro i hi
    unfold unit
    interval_cases i
    · simp only [Finset.sum_range_succ, Finset.sum_range_zero, val, exT, sumAt, exM]
      norm_num
    · simp [Finset.sum_range_succ, val, exT, sumAt, exM]

end Verif.FloatTrans
