import Verif.Trans.Lemmas
import Mathlib.Algebra.Field.Rat
import Mathlib.Data.Rat.Defs
import Mathlib.Algebra.Order.Ring.Rat
import Mathlib.Tactic.NormNum
import Mathlib.Tactic.IntervalCases

/-!
# Transition matrices: properties C37 to C41 and C58
-/

set_option linter.dupNamespace false
set_option linter.unusedSectionVars false
set_option linter.unusedSimpArgs false

namespace Verif.Trans

open Verif.TempNet Finset

variable {K : Type} [Field K] [LinearOrder K] [IsStrictOrderedRing K]

/-! ## C38 -/

/-- **C38**.  There is one cumulative matrix per inter-event matrix; the `k`-th is the product
of the first `k+1` inter-event matrices in time order, or in reverse order when time is
reversed, and it is stochastic. -/
theorem C38_products {n : Nat} {ms : List (Mat K)} (hne : ms ≠ []) (h : ∀ A ∈ ms, Stoch n A)
    (reverse : Bool) :
    (cumulative n reverse none ms).length = ms.length ∧
    ∀ (k : Nat) (hk : k < (cumulative n reverse none ms).length),
      EqOn n (cumulative n reverse none ms)[k]
        (prod n ((if reverse then ms.reverse else ms).take (k + 1))) ∧
      Stoch n (cumulative n reverse none ms)[k] := by
  obtain ⟨M, rest, h1, h2, _⟩ := cumulative_eq n reverse none ms hne
  have hord : ∀ A ∈ ordered reverse ms, Stoch n A := by
    intro A hA
    unfold ordered at hA
    split at hA
    · exact h A (List.mem_reverse.1 hA)
    · exact h A hA
  have hlen : (ordered reverse ms).length = ms.length := by
    unfold ordered; split <;> simp
  rw [h1] at hord
  have hk : ∀ (k : Nat) (hk : k < (cumulative n reverse none ms).length),
      EqOn n (cumulative n reverse none ms)[k] (prod n ((ordered reverse ms).take (k + 1))) := by
    rw [h2, h1]
    refine cumLoop_prod n rest [clean n none M] [M] (by simp) rfl hord ?_
    intro k hk
    simp only [List.length_cons, List.length_nil] at hk
    have : k = 0 := by omega
    subst this
    exact (mul_eye M).symm
  refine ⟨?_, fun k hk' => ⟨hk k hk', stoch_congr (hk k hk') (stoch_prod ?_)⟩⟩
  · rw [h2, cumLoop_length, ← hlen, h1]
    simp only [List.length_cons, List.length_nil]; omega
  · intro A hA
    have := List.mem_of_mem_take hA
    rw [h1] at this
    exact hord A this

/-- **C38**: asking for the last matrix only gives the last of the list, with and without
tolerance. -/
theorem C38_last_only (n : Nat) (ms : List (Mat K)) (hne : ms ≠ []) (reverse : Bool) (tol : Option K) :
    (cumulative n reverse tol ms).getLast? = some (cumulativeLast n reverse tol ms) := by
  obtain ⟨M, rest, h1, h2, h3⟩ := cumulative_eq n reverse tol ms hne
  have hl : (cumulative n reverse tol ms) ≠ [] := by
    intro hc
    have := cumLoop_length n tol rest [clean n tol M]
    rw [← h2, hc] at this
    simp at this
    omega
  have := cumLoop_last n tol rest [clean n tol M]
  rw [← h2, List.getLastD_eq_getLast?, List.getLast?_eq_some_getLast hl] at this
  rw [List.getLast?_eq_some_getLast hl, h3]
  simpa using this

/-- **C38**: with a relative tolerance below `1/n` every cumulative matrix is stochastic. -/
theorem C38_tolerance {n : Nat} {ms : List (Mat K)} (hne : ms ≠ []) (h : ∀ A ∈ ms, Stoch n A)
    (reverse : Bool) {tol : K} (h0 : 0 ≤ tol) (h1 : n * tol < 1) :
    ∀ T ∈ cumulative n reverse (some tol) ms, Stoch n T := by
  obtain ⟨M, rest, e1, e2, _⟩ := cumulative_eq n reverse (some tol) ms hne
  have hord : ∀ A ∈ M :: rest, Stoch n A := by
    rw [← e1]
    intro A hA
    unfold ordered at hA
    split at hA
    · exact h A (List.mem_reverse.1 hA)
    · exact h A hA
  rw [e2]
  apply cumLoop_all n (some tol) (Stoch n) rest [clean n (some tol) M] (by simp)
  · intro A hA
    simp only [List.mem_singleton] at hA
    subst hA
    exact round_stoch (hord M (by simp)) h0 h1
  · intro A B hA hB
    exact round_stoch (stoch_mul hA (round_stoch (hord B (by simp [hB])) h0 h1)) h0 h1

/-- Two stochastic matrices on two nodes. -/
def exMats : List (Mat ℚ) :=
  [fun i _ => if i = 0 then 1 / 2 else 1 / 2, fun i j => if i = 0 then (if j = 1 then 1 else 0) else 1 / 2]

theorem exMats_stoch : ∀ A ∈ exMats, Stoch 2 A := by
  intro A hA
  simp only [exMats, List.mem_cons, List.not_mem_nil, or_false] at hA
  rcases hA with rfl | rfl <;>
  · intro i hi
    interval_cases i <;>
    · refine ⟨fun j hj => ?_, by decide +kernel⟩
      interval_cases j <;> decide +kernel

example : exMats ≠ [] ∧ (∀ A ∈ exMats, Stoch 2 A) ∧ (0 : ℚ) ≤ 1 / 100000000 ∧
    ((2 : ℕ) : ℚ) * (1 / 100000000) < 1 := ⟨by simp [exMats], exMats_stoch, by norm_num, by norm_num⟩

/-- A tolerance of `1/n` can delete a whole row, and the result is not stochastic. -/
theorem C38_tolerance_bound_needed : ∃ (ms : List (Mat ℚ)) (tol : ℚ), ms ≠ [] ∧ (∀ A ∈ ms, Stoch 2 A) ∧
    0 ≤ tol ∧ ((2 : ℕ) : ℚ) * tol = 1 ∧ ∃ T ∈ cumulative 2 false (some tol) ms, ¬ Stoch 2 T := by
  refine ⟨[fun i j => if i = 0 then (if j = 0 then 1 else 0) else 1 / 2], 1 / 2, by simp, ?_, by norm_num,
    by norm_num, _, List.mem_singleton.2 rfl, ?_⟩
  · intro A hA
    simp only [List.mem_singleton] at hA
    subst hA
    intro i hi
    interval_cases i <;>
    · refine ⟨fun j hj => ?_, by decide +kernel⟩
      interval_cases j <;> decide +kernel
  · intro hc
    have := (hc 1 (by norm_num)).2
    revert this
    decide +kernel

/-! ## C39 -/

theorem load_spec (ds : List (Mat K)) : ∀ (acc : List (Mat K)) (M : Mat K),
    ds.foldl (fun acc d => acc ++ [fun i j => acc.getLastD eye i j + d i j]) (acc ++ [M]) =
      acc ++ ds.foldl (fun acc d => acc ++ [fun i j => acc.getLastD eye i j + d i j]) [M] := by
  induction ds using List.reverseRecOn with
  | nil => intro acc M; rfl
  | append_singleton ds d ih =>
    intro acc M
    rw [List.foldl_append, List.foldl_append, ih]
    simp only [List.foldl_cons, List.foldl_nil]
    rw [← List.append_assoc]
    congr 2
    have hne : ∀ (ds : List (Mat K)),
        ds.foldl (fun acc d => acc ++ [fun i j => acc.getLastD eye i j + d i j]) [M] ≠ [] := by
      intro ds
      induction ds using List.reverseRecOn with
      | nil => simp
      | append_singleton ds d _ => rw [List.foldl_append]; simp
    rw [List.getLastD_eq_getLast?, List.getLastD_eq_getLast?, List.getLast?_append_of_ne_nil _ (hne ds)]

theorem load_deltas (ms : List (Mat K)) : ∀ M : Mat K,
    (deltas (M :: ms)).foldl (fun acc d => acc ++ [fun i j => acc.getLastD eye i j + d i j]) [M] =
      M :: ms := by
  induction ms with
  | nil => intro M; rfl
  | cons B ms ih =>
    intro M
    simp only [deltas, List.foldl_cons]
    have hB : (fun i j => [M].getLastD eye i j + (B i j - M i j)) = B := by
      funext i j; simp
    rw [hB]
    have := load_spec (deltas (B :: ms)) [M] B
    rw [this, ih B]
    rfl

/-- **C39** (part): without rounding, loading a file saved as differences returns the list of
inter-event matrices.  Missing: the claim with rounding, which is false, see
`C39_rounding_violated`, and for all rates at once, see `C39_all_rates_fail`. -/
theorem C39_round_trip_partial (n : Nat) (interT : List (K × List (Mat K))) (lamda : K) (ms : List (Mat K))
    (h : interT.lookup lamda = some ms) (hne : ms ≠ []) :
    ∃ f, saveDelta n interT (some lamda) none = .ok f ∧ loadDelta f = ms := by
  cases ms with
  | nil => exact absurd rfl hne
  | cons M ms =>
    refine ⟨⟨M, deltas (M :: ms)⟩, ?_, load_deltas ms M⟩
    have : (deltas (M :: ms)).map (roundIf n (none : Option K)) = deltas (M :: ms) := by
      have : roundIf n (none : Option K) = id := by funext A; rfl
      rw [this, List.map_id]
    simp only [saveDelta, h, this]
    rfl

example : ([((1 : ℚ), exMats)] : List (ℚ × List (Mat ℚ))).lookup 1 = some exMats ∧ exMats ≠ [] :=
  ⟨by simp [List.lookup], by simp [exMats]⟩

/-- With the default rounding, every negative difference is set to zero: the second matrix
loaded is not the one saved and its rows do not sum to one. -/
theorem C39_rounding_violated : ∃ f, saveDelta 2 [((1 : ℚ), exMats)] (some 1) (some (1 / 100000000)) = .ok f ∧
    ∃ M, (loadDelta f)[1]? = some M ∧ exMats[1]? ≠ none ∧ M 0 0 = 1 / 2 ∧
      (∀ B, exMats[1]? = some B → B 0 0 = 0) ∧ M 0 0 + M 0 1 = 3 / 2 := by
  refine ⟨⟨roundIf 2 (some (1 / 100000000)) (exMats.getD 0 eye),
    (deltas exMats).map (roundIf 2 (some (1 / 100000000)))⟩, ?_, _, rfl, by simp [exMats], ?_, ?_, ?_⟩
  · simp [saveDelta, List.lookup, exMats]
  · decide +kernel
  · intro B hB
    simp only [exMats, List.getElem?_cons_succ, List.getElem?_cons_zero, Option.some.injEq] at hB
    subst hB; rfl
  · decide +kernel

/-- **C39**: saving the differences succeeds exactly for one rate for which at least one matrix
was computed; for all rates (`lamda=None`) it fails, whatever was computed. -/
theorem C39_all_rates_fail (n : Nat) (interT : List (K × List (Mat K))) (lamda round : Option K) :
    (∃ f, saveDelta n interT lamda round = .ok f) ↔
      ∃ l ms, lamda = some l ∧ interT.lookup l = some ms ∧ ms ≠ [] := by
  unfold saveDelta
  cases lamda with
  | none => simp
  | some l =>
    cases h : interT.lookup l with
    | none => simp [h]
    | some ms => cases ms <;> simp [h]

/-! ## C40 -/

/-- The approximation as a path from the identity over `T` to `Pi`. -/
theorem linApprox_path (T Pi : Mat K) (t tS : K) (h0 : 0 ≤ t) (hS : 1 < tS) :
    ∃ A, linApprox T Pi t tS = some A ∧ ∀ i j, A i j =
      (1 - min t 1) * eye i j + (min t 1 - min ((max t 1 - 1) / (tS - 1)) 1) * T i j +
        min ((max t 1 - 1) / (tS - 1)) 1 * Pi i j := by
  have hpos : 0 < tS - 1 := sub_pos.2 hS
  unfold linApprox
  rw [if_neg (not_lt.2 h0)]
  by_cases h1 : t ≤ 1
  · refine ⟨_, if_pos h1, ?_⟩
    intro i j
    rw [min_eq_left h1, max_eq_right h1, sub_self, zero_div, min_eq_left zero_le_one]
    ring
  · have h1' := not_le.1 h1
    rw [if_neg h1, min_eq_right h1'.le, max_eq_left h1'.le]
    by_cases h2 : t < tS
    · refine ⟨_, if_pos h2, ?_⟩
      intro i j
      rw [min_eq_left (by rw [div_le_one hpos]; linarith)]
      have : (1 - tS) ≠ 0 := by intro hc; linarith
      have : tS - 1 ≠ 0 := hpos.ne'
      field_simp
      ring
    · refine ⟨_, if_neg h2, ?_⟩
      intro i j
      rw [min_eq_right (by rw [le_div_iff₀ hpos]; linarith [not_lt.1 h2])]
      ring

/-- **C40**: exactly the negative times are rejected, whatever the matrices and the
stationary time. -/
theorem C40_negative_rejected (T Pi : Mat K) (t tS : K) : linApprox T Pi t tS = none ↔ t < 0 := by
  unfold linApprox
  constructor
  · intro h
    by_contra hn
    rw [if_neg hn] at h
    split at h
    · cases h
    · split at h <;> cases h
  · intro h
    rw [if_pos h]

/-- **C40**: for a stochastic matrix and a stochastic limit the approximation is stochastic at
every time. -/
theorem C40_stochastic {n : Nat} {T Pi : Mat K} (hT : Stoch n T) (hP : Stoch n Pi) (t tS : K) (h0 : 0 ≤ t)
    (hS : 1 < tS) : ∃ A, linApprox T Pi t tS = some A ∧ Stoch n A := by
  have hpos : 0 < tS - 1 := sub_pos.2 hS
  obtain ⟨A, hA, hv⟩ := linApprox_path T Pi t tS h0 hS
  have ha : 0 ≤ 1 - min t 1 := sub_nonneg.2 (min_le_right _ _)
  have hb : 0 ≤ min ((max t 1 - 1) / (tS - 1)) 1 :=
    le_min (div_nonneg (sub_nonneg.2 (le_max_right _ _)) hpos.le) zero_le_one
  have hc : 0 ≤ min t 1 - min ((max t 1 - 1) / (tS - 1)) 1 := by
    rcases le_total t 1 with h1 | h1
    · rw [min_eq_left h1, max_eq_right h1, sub_self, zero_div, min_eq_left zero_le_one]; linarith
    · rw [min_eq_right h1]; exact sub_nonneg.2 (min_le_right _ _)
  refine ⟨A, hA, ?_⟩
  intro i hi
  refine ⟨fun j hj => ?_, ?_⟩
  · rw [hv]
    exact add_nonneg (add_nonneg (mul_nonneg ha ((stoch_eye n i hi).1 j hj))
      (mul_nonneg hc ((hT i hi).1 j hj))) (mul_nonneg hb ((hP i hi).1 j hj))
  · simp only [hv]
    rw [Finset.sum_add_distrib, Finset.sum_add_distrib, ← Finset.mul_sum, ← Finset.mul_sum, ← Finset.mul_sum,
      (stoch_eye n i hi).2, (hT i hi).2, (hP i hi).2]
    ring

/-- **C40**: the approximation is the identity at time 0, `T` at time 1 and `Pi` from the
stationarity time on. -/
theorem C40_end_points (T Pi : Mat K) (tS : K) (hS : 1 < tS) :
    linApprox T Pi 0 tS = some eye ∧ linApprox T Pi 1 tS = some T ∧
      ∀ t, tS ≤ t → linApprox T Pi t tS = some Pi := by
  refine ⟨?_, ?_, ?_⟩
  · unfold linApprox
    rw [if_neg (lt_irrefl _), if_pos zero_le_one]
    congr 1; funext i j; ring
  · unfold linApprox
    rw [if_neg (not_lt.2 zero_le_one), if_pos le_rfl]
    congr 1; funext i j; ring
  · intro t ht
    unfold linApprox
    rw [if_neg (by linarith), if_neg (by linarith), if_neg (not_lt.2 ht)]

theorem abs_min_sub (a b c : K) : |min a c - min b c| ≤ |a - b| := by
  exact abs_inf_sub_inf_le_abs a b c

/-- **C40**: the approximation changes continuously with time: between two times no entry
changes by more than `1 + 1 / (t_s - 1)` times their difference. -/
theorem C40_continuous {n : Nat} {T Pi : Mat K} (hT : Stoch n T) (hP : Stoch n Pi) (tS s t : K)
    (hs : 0 ≤ s) (ht : 0 ≤ t) (hS : 1 < tS) :
    ∃ A B, linApprox T Pi s tS = some A ∧ linApprox T Pi t tS = some B ∧
      ∀ i < n, ∀ j < n, |A i j - B i j| ≤ (1 + 1 / (tS - 1)) * |s - t| := by
  have hpos : 0 < tS - 1 := sub_pos.2 hS
  obtain ⟨A, hA, hv⟩ := linApprox_path T Pi s tS hs hS
  obtain ⟨B, hB, hw⟩ := linApprox_path T Pi t tS ht hS
  refine ⟨A, B, hA, hB, ?_⟩
  intro i hi j hj
  rw [hv, hw]
  have e1 := (stoch_eye (K := K) n i hi).1 j hj
  have e2 := stoch_le_one (stoch_eye (K := K) n) hi hj
  have t1 := (hT i hi).1 j hj
  have t2 := stoch_le_one hT hi hj
  have p1 := (hP i hi).1 j hj
  have p2 := stoch_le_one hP hi hj
  set a := min s 1
  set a' := min t 1
  set b := min ((max s 1 - 1) / (tS - 1)) 1
  set b' := min ((max t 1 - 1) / (tS - 1)) 1
  have ha : |a - a'| ≤ |s - t| := abs_min_sub s t 1
  have hb : |b - b'| ≤ 1 / (tS - 1) * |s - t| := by
    refine (abs_min_sub _ _ 1).trans ?_
    rw [← sub_div, abs_div, abs_of_pos hpos, div_eq_mul_one_div, mul_comm]
    refine mul_le_mul_of_nonneg_left ?_ (div_nonneg zero_le_one hpos.le)
    have : max s 1 - 1 - (max t 1 - 1) = max s 1 - max t 1 := by ring
    rw [this]
    exact abs_sup_sub_sup_le_abs s t 1
  have hsplit : (1 - a) * eye i j + (a - b) * T i j + b * Pi i j -
      ((1 - a') * eye i j + (a' - b') * T i j + b' * Pi i j) =
      (a - a') * (T i j - eye i j) + (b - b') * (Pi i j - T i j) := by ring
  rw [hsplit]
  refine (abs_add_le _ _).trans ?_
  rw [abs_mul, abs_mul, add_mul, one_mul]
  refine add_le_add ?_ ?_
  · calc |a - a'| * |T i j - eye i j| ≤ |a - a'| * 1 :=
          mul_le_mul_of_nonneg_left (abs_le.2 ⟨by linarith, by linarith⟩) (abs_nonneg _)
      _ ≤ |s - t| := by rw [mul_one]; exact ha
  · calc |b - b'| * |Pi i j - T i j| ≤ |b - b'| * 1 :=
          mul_le_mul_of_nonneg_left (abs_le.2 ⟨by linarith, by linarith⟩) (abs_nonneg _)
      _ ≤ 1 / (tS - 1) * |s - t| := by rw [mul_one]; exact hb

example : Stoch 2 (exMats.getD 0 eye) ∧ Stoch 2 (exMats.getD 1 eye) ∧ (1 : ℚ) < 10 :=
  ⟨exMats_stoch _ (by simp [exMats]), exMats_stoch _ (by simp [exMats]), by norm_num⟩

end Verif.Trans
