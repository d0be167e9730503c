import Verif.Trans.Spec
import Verif.TempNet.Props
import Mathlib.Algebra.Order.BigOperators.Group.Finset
import Mathlib.Algebra.BigOperators.Ring.Finset
import Mathlib.Algebra.BigOperators.Field
import Mathlib.Tactic.FieldSimp

/-!
# Lemmas about transition matrices
-/

set_option linter.dupNamespace false
set_option linter.unusedSectionVars false
set_option linter.unusedSimpArgs false

namespace Verif.Trans

open Verif.TempNet Finset

variable {K : Type} [Field K] [LinearOrder K] [IsStrictOrderedRing K]

theorem EqOn.refl (n : Nat) (A : Mat K) : EqOn n A A := fun _ _ _ _ => rfl
theorem EqOn.symm {n : Nat} {A B : Mat K} (h : EqOn n A B) : EqOn n B A :=
  fun i hi j hj => (h i hi j hj).symm
theorem EqOn.trans {n : Nat} {A B C : Mat K} (h : EqOn n A B) (h' : EqOn n B C) : EqOn n A C :=
  fun i hi j hj => (h i hi j hj).trans (h' i hi j hj)

theorem mul_congr {n : Nat} {A A' B B' : Mat K} (h : EqOn n A A') (h' : EqOn n B B') :
    EqOn n (mul n A B) (mul n A' B') := by
  intro i hi j hj
  unfold mul
  refine Finset.sum_congr rfl fun k hk => ?_
  rw [h i hi k (mem_range.1 hk), h' k (mem_range.1 hk) j hj]

theorem mul_eye {n : Nat} (A : Mat K) : EqOn n (mul n A eye) A := by
  intro i _ j hj
  unfold mul eye
  simp [hj]

theorem eye_mul {n : Nat} (A : Mat K) : EqOn n (mul n eye A) A := by
  intro i hi j _
  unfold mul eye
  simp [hi]

theorem mul_assoc' (n : Nat) (A B C : Mat K) : mul n (mul n A B) C = mul n A (mul n B C) := by
  funext i j
  unfold mul
  simp only [Finset.sum_mul, Finset.mul_sum]
  rw [Finset.sum_comm]
  refine Finset.sum_congr rfl fun k _ => Finset.sum_congr rfl fun l _ => ?_
  ring

theorem prod_append (n : Nat) (l : List (Mat K)) (A : Mat K) :
    EqOn n (prod n (l ++ [A])) (mul n (prod n l) A) := by
  induction l with
  | nil =>
    exact (mul_eye A).trans (eye_mul A).symm
  | cons B l ih =>
    show EqOn n (mul n B (prod n (l ++ [A]))) (mul n (mul n B (prod n l)) A)
    rw [mul_assoc']
    exact mul_congr (EqOn.refl _ _) ih

theorem stoch_congr {n : Nat} {A B : Mat K} (h : EqOn n A B) (hB : Stoch n B) : Stoch n A := by
  intro i hi
  refine ⟨fun j hj => by rw [h i hi j hj]; exact (hB i hi).1 j hj, ?_⟩
  rw [← (hB i hi).2]
  exact Finset.sum_congr rfl fun j hj => h i hi j (mem_range.1 hj)

theorem stoch_eye (n : Nat) : Stoch n (eye : Mat K) := by
  intro i hi
  refine ⟨fun j _ => by unfold eye; split <;> simp, by unfold eye; simp [hi]⟩

theorem stoch_mul {n : Nat} {A B : Mat K} (hA : Stoch n A) (hB : Stoch n B) : Stoch n (mul n A B) := by
  intro i hi
  unfold mul
  refine ⟨fun j hj => Finset.sum_nonneg fun k hk => mul_nonneg ((hA i hi).1 k (mem_range.1 hk))
    ((hB k (mem_range.1 hk)).1 j hj), ?_⟩
  rw [Finset.sum_comm, ← (hA i hi).2]
  refine Finset.sum_congr rfl fun k hk => ?_
  rw [← Finset.mul_sum, (hB k (mem_range.1 hk)).2, mul_one]

theorem stoch_prod {n : Nat} {l : List (Mat K)} (h : ∀ A ∈ l, Stoch n A) : Stoch n (prod n l) := by
  induction l with
  | nil => exact stoch_eye n
  | cons A l ih => exact stoch_mul (h A (by simp)) (ih fun B hB => h B (by simp [hB]))

theorem rowNormalize_stoch {n : Nat} {A : Mat K} (h : Stoch n A) : EqOn n (rowNormalize n A) A := by
  intro i hi j _
  unfold rowNormalize
  rw [(h i hi).2]
  simp

/-! ### Rounding -/

theorem foldl_max_ge {α : Type} (f : α → K) (l : List α) : ∀ m : K,
    m ≤ l.foldl (fun m j => max m (f j)) m ∧ ∀ j ∈ l, f j ≤ l.foldl (fun m j => max m (f j)) m := by
  induction l with
  | nil => intro m; simp
  | cons a l ih =>
    intro m
    obtain ⟨h1, h2⟩ := ih (max m (f a))
    simp only [List.foldl_cons, List.mem_cons, forall_eq_or_imp]
    exact ⟨(le_max_left _ _).trans h1, (le_max_right _ _).trans h1, h2⟩

theorem foldl_max_le {α : Type} (f : α → K) (c : K) (l : List α) : ∀ m : K, m ≤ c → (∀ j ∈ l, f j ≤ c) →
    l.foldl (fun m j => max m (f j)) m ≤ c := by
  induction l with
  | nil => intro m h _; exact h
  | cons a l ih =>
    intro m h1 h2
    exact ih _ (max_le h1 (h2 a (by simp))) fun j hj => h2 j (by simp [hj])

theorem maxAbs_le {n : Nat} {A : Mat K} {c : K} (hc : 0 ≤ c) (h : ∀ i < n, ∀ j < n, |A i j| ≤ c) :
    maxAbs n A ≤ c := by
  unfold maxAbs
  have : ∀ (l : List Nat) (m : K), m ≤ c → (∀ i ∈ l, i < n) →
      l.foldl (fun m i => (List.range n).foldl (fun m j => max m |A i j|) m) m ≤ c := by
    intro l
    induction l with
    | nil => intro m h _; exact h
    | cons a l ih =>
      intro m h1 h2
      refine ih _ ?_ fun i hi => h2 i (by simp [hi])
      exact foldl_max_le _ c _ _ h1 fun j hj => h a (h2 a (by simp)) j (List.mem_range.1 hj)
  exact this _ _ hc fun i hi => List.mem_range.1 hi

theorem maxAbs_nonneg (n : Nat) (A : Mat K) : 0 ≤ maxAbs n A := by
  unfold maxAbs
  have : ∀ (l : List Nat) (m : K), m ≤
      l.foldl (fun m i => (List.range n).foldl (fun m j => max m |A i j|) m) m := by
    intro l
    induction l with
    | nil => intro m; exact le_rfl
    | cons a l ih => intro m; exact ((foldl_max_ge _ _ m).1).trans (ih _)
  exact this _ _

theorem abs_le_maxAbs {n : Nat} (A : Mat K) {i j : Nat} (hi : i < n) (hj : j < n) :
    |A i j| ≤ maxAbs n A := by
  unfold maxAbs
  have mono : ∀ (l : List Nat) (m : K), m ≤
      l.foldl (fun m i => (List.range n).foldl (fun m j => max m |A i j|) m) m := by
    intro l
    induction l with
    | nil => intro m; exact le_rfl
    | cons a l ih => intro m; exact ((foldl_max_ge _ _ m).1).trans (ih _)
  have : ∀ (l : List Nat) (m : K), i ∈ l → |A i j| ≤
      l.foldl (fun m i => (List.range n).foldl (fun m j => max m |A i j|) m) m := by
    intro l
    induction l with
    | nil => intro m h; cases h
    | cons a l ih =>
      intro m h
      rcases List.mem_cons.1 h with rfl | h
      · exact ((foldl_max_ge (fun j => |A i j|) _ m).2 j (List.mem_range.2 hj)).trans (mono l _)
      · exact ih _ h
  exact this _ _ (List.mem_range.2 hi)

theorem clean_rounded (n : Nat) (tol : K) (A : Mat K) : Rounded n tol A (clean n (some tol) A) := by
  refine ⟨maxAbs n A, ⟨fun i hi j hj => abs_le_maxAbs A hi hj, fun b hb h => maxAbs_le hb h⟩, ?_⟩
  intro i hi keep sum j hj
  rfl

theorem stoch_le_one {n : Nat} {A : Mat K} (h : Stoch n A) {i j : Nat} (hi : i < n) (hj : j < n) :
    A i j ≤ 1 := by
  rw [← (h i hi).2]
  exact Finset.single_le_sum (f := fun j => A i j) (fun k hk => (h i hi).1 k (mem_range.1 hk)) (mem_range.2 hj)

/-- A row of a stochastic matrix has an entry of at least `1/n`. -/
theorem stoch_large {n : Nat} {A : Mat K} (h : Stoch n A) {i : Nat} (hi : i < n) :
    ∃ j < n, 1 ≤ n * A i j := by
  by_contra hcon
  push Not at hcon
  have hn : (0 : K) < n := by exact_mod_cast Nat.lt_of_le_of_lt (Nat.zero_le i) hi
  have h1 : ∑ j ∈ range n, A i j < ∑ _j ∈ range n, (1 / (n : K)) := by
    refine Finset.sum_lt_sum_of_nonempty ⟨i, mem_range.2 hi⟩ fun j hj => ?_
    rw [lt_div_iff₀ hn, mul_comm]
    exact hcon j (mem_range.1 hj)
  rw [(h i hi).2, Finset.sum_const, card_range, nsmul_eq_mul, mul_one_div_cancel hn.ne'] at h1
  exact lt_irrefl _ h1

/-- Rounding and normalising a stochastic matrix gives a stochastic matrix when the tolerance
is below `1/n`. -/
theorem round_stoch {n : Nat} {A : Mat K} (h : Stoch n A) {tol : K} (h0 : 0 ≤ tol) (h1 : n * tol < 1) :
    Stoch n (rowNormalize n (setToZeroes n tol A)) := by
  have hm : maxAbs n A ≤ 1 := maxAbs_le zero_le_one fun i hi j hj => by
    rw [abs_of_nonneg ((h i hi).1 j hj)]; exact stoch_le_one h hi hj
  have hthr : tol * maxAbs n A ≤ tol := by
    calc tol * maxAbs n A ≤ tol * 1 := mul_le_mul_of_nonneg_left hm h0
      _ = tol := mul_one _
  have hnn : ∀ i < n, ∀ j < n, 0 ≤ setToZeroes n tol A i j := by
    intro i hi j hj
    unfold setToZeroes
    split
    · exact le_rfl
    · exact (h i hi).1 j hj
  intro i hi
  have hpos : 0 < ∑ k ∈ range n, setToZeroes n tol A i k := by
    obtain ⟨j, hj, hl⟩ := stoch_large h hi
    have hn : (0 : K) < n := by exact_mod_cast Nat.lt_of_le_of_lt (Nat.zero_le i) hi
    have hgt : tol < A i j := by
      by_contra hc
      have : (n : K) * A i j ≤ n * tol := mul_le_mul_of_nonneg_left (not_lt.1 hc) hn.le
      linarith
    have hval : setToZeroes n tol A i j = A i j := by
      unfold setToZeroes
      rw [if_neg]
      intro hc
      linarith
    have : setToZeroes n tol A i j ≤ ∑ k ∈ range n, setToZeroes n tol A i k :=
      Finset.single_le_sum (f := fun k => setToZeroes n tol A i k)
        (fun k hk => hnn i hi k (mem_range.1 hk)) (mem_range.2 hj)
    rw [hval] at this
    linarith
  refine ⟨fun j hj => ?_, ?_⟩
  · unfold rowNormalize
    rw [if_neg hpos.ne']
    exact div_nonneg (hnn i hi j hj) hpos.le
  · have : ∀ j, rowNormalize n (setToZeroes n tol A) i j =
        setToZeroes n tol A i j / ∑ k ∈ range n, setToZeroes n tol A i k := by
      intro j; unfold rowNormalize; rw [if_neg hpos.ne']
    simp only [this]
    rw [← Finset.sum_div, div_self hpos.ne']

/-! ### Cumulative products -/

/-- The inter-event matrices in the order in which they are multiplied. -/
def ordered (reverse : Bool) (ms : List (Mat K)) : List (Mat K) := if reverse then ms.reverse else ms

/-- First matrix and loop matrices make up the list. -/
theorem order_spec (reverse : Bool) (ms : List (Mat K)) (h : ms ≠ []) :
    ms.getD (order reverse ms.length).1 eye :: (order reverse ms.length).2.map (fun k => ms.getD k eye) =
      ordered reverse ms := by
  have hlen : 0 < ms.length := List.length_pos_iff.2 h
  have hr : ∀ m : Nat, m ≤ ms.length → (List.range m).map (fun k => ms.getD k eye) = ms.take m := by
    intro m hm
    apply List.ext_getElem
    · simp [hm]
    · intro i h1 h2
      simp only [List.getElem_map, List.getElem_range, List.getElem_take]
      rw [List.getD_eq_getElem?_getD, List.getElem?_eq_getElem (by simp at h1; omega)]
      rfl
  cases reverse with
  | false =>
    simp only [order, ordered, Bool.false_eq_true, if_false]
    have : 0 :: List.range' 1 (ms.length - 1) = List.range ms.length := by
      obtain ⟨m, hm⟩ : ∃ m, ms.length = m + 1 := ⟨ms.length - 1, by omega⟩
      rw [hm, List.range_eq_range', List.range'_succ]
      rfl
    rw [← List.map_cons (f := fun k => ms.getD k eye), this, hr _ le_rfl, List.take_length]
  | true =>
    simp only [order, ordered, if_true]
    rw [List.map_reverse, hr _ (by omega)]
    conv_rhs => rw [← List.take_append_drop (ms.length - 1) ms]
    rw [List.reverse_append]
    have : ms.drop (ms.length - 1) = [ms.getD (ms.length - 1) eye] := by
      rw [List.drop_eq_getElem_cons (by omega), List.drop_eq_nil_iff.2 (by omega),
        List.getD_eq_getElem?_getD, List.getElem?_eq_getElem (by omega)]
      rfl
    rw [this]
    rfl

/-- The loop over matrices, apart from the indices. -/
def cumLoop (n : Nat) (tol : Option K) (acc : List (Mat K)) (rest : List (Mat K)) : List (Mat K) :=
  rest.foldl (fun acc M => acc ++ [finish n tol (mul n (acc.getLastD eye) (clean n tol M))]) acc

theorem cumulative_eq (n : Nat) (reverse : Bool) (tol : Option K) (ms : List (Mat K)) (h : ms ≠ []) :
    ∃ M rest, ordered reverse ms = M :: rest ∧
      cumulative n reverse tol ms = cumLoop n tol [clean n tol M] rest ∧
      cumulativeLast n reverse tol ms =
        rest.foldl (fun T M => finish n tol (mul n T (clean n tol M))) (clean n tol M) := by
  have := order_spec reverse ms h
  refine ⟨_, _, this.symm, ?_, ?_⟩
  · unfold cumulative cumLoop
    rw [List.foldl_map]
  · unfold cumulativeLast
    rw [List.foldl_map]

theorem cumLoop_length (n : Nat) (tol : Option K) (rest : List (Mat K)) : ∀ acc : List (Mat K),
    (cumLoop n tol acc rest).length = acc.length + rest.length := by
  induction rest with
  | nil => intro acc; rfl
  | cons M rest ih =>
    intro acc
    show (cumLoop n tol (acc ++ [_]) rest).length = _
    rw [ih]
    simp only [List.length_append, List.length_cons, List.length_nil]
    omega

theorem cumLoop_last (n : Nat) (tol : Option K) (rest : List (Mat K)) : ∀ (acc : List (Mat K)),
    (cumLoop n tol acc rest).getLastD eye =
      rest.foldl (fun T M => finish n tol (mul n T (clean n tol M))) (acc.getLastD eye) := by
  induction rest with
  | nil => intro acc; rfl
  | cons M rest ih =>
    intro acc
    show (cumLoop n tol (acc ++ [_]) rest).getLastD eye = _
    rw [ih]
    simp

/-- Every entry of the list satisfies a property kept by the loop. -/
theorem cumLoop_all (n : Nat) (tol : Option K) (P : Mat K → Prop)
    (rest : List (Mat K)) : ∀ acc : List (Mat K), acc ≠ [] → (∀ A ∈ acc, P A) →
    (∀ A M, P A → M ∈ rest → P (finish n tol (mul n A (clean n tol M)))) →
    ∀ A ∈ cumLoop n tol acc rest, P A := by
  induction rest with
  | nil => intro acc _ h _; exact h
  | cons M rest ih =>
    intro acc hne h hs
    refine ih (acc ++ [finish n tol (mul n (acc.getLastD eye) (clean n tol M))]) (by simp) ?_
      (fun A M' hA hM => hs A M' hA (by simp [hM]))
    intro A hA
    rcases List.mem_append.1 hA with hA | hA
    · exact h A hA
    · simp only [List.mem_singleton] at hA
      subst hA
      refine hs _ M ?_ (by simp)
      rw [List.getLastD_eq_getLast?, List.getLast?_eq_some_getLast hne]
      exact h _ (List.getLast_mem hne)

/-- Without tolerance the loop appends the products. -/
theorem cumLoop_prod (n : Nat) (rest : List (Mat K)) : ∀ (acc done : List (Mat K)), acc ≠ [] →
    acc.length = done.length → (∀ A ∈ done ++ rest, Stoch n A) →
    (∀ (k : Nat) (hk : k < acc.length), EqOn n acc[k] (prod n (done.take (k + 1)))) →
    ∀ (k : Nat) (hk : k < (cumLoop n none acc rest).length),
      EqOn n (cumLoop n none acc rest)[k] (prod n ((done ++ rest).take (k + 1))) := by
  induction rest with
  | nil =>
    intro acc done _ _ _ h k hk
    rw [List.append_nil]
    exact h k hk
  | cons M rest ih =>
    intro acc done hne hlen hst h k hk
    have hstep : ∀ (k : Nat) (hk : k < (acc ++ [finish n none (mul n (acc.getLastD eye) (clean n none M))]).length),
        EqOn n (acc ++ [finish n none (mul n (acc.getLastD eye) (clean n none M))])[k]
          (prod n ((done ++ [M]).take (k + 1))) := by
      intro k hk
      by_cases hk' : k < acc.length
      · rw [List.getElem_append_left hk', List.take_append_of_le_length (by omega)]
        exact h k hk'
      · have hke : k = acc.length := by
          simp only [List.length_append, List.length_cons, List.length_nil] at hk; omega
        subst hke
        rw [List.getElem_append_right le_rfl]
        simp only [Nat.sub_self, List.getElem_cons_zero]
        rw [List.take_of_length_le (by simp; omega)]
        have hpos : 0 < acc.length := List.length_pos_iff.2 hne
        have hlast : EqOn n (acc.getLastD eye) (prod n done) := by
          rw [List.getLastD_eq_getLast?, List.getLast?_eq_some_getLast hne, Option.getD_some,
            List.getLast_eq_getElem]
          have := h (acc.length - 1) (by omega)
          rw [List.take_of_length_le (by omega)] at this
          exact this
        have hp : EqOn n (mul n (acc.getLastD eye) M) (mul n (prod n done) M) :=
          mul_congr hlast (EqOn.refl _ _)
        have hs : Stoch n (mul n (acc.getLastD eye) M) :=
          stoch_congr hp (stoch_mul (stoch_prod fun A hA => hst A (by simp [hA])) (hst M (by simp)))
        exact ((rowNormalize_stoch hs).trans hp).trans (prod_append n done M).symm
    have := ih (acc ++ [finish n none (mul n (acc.getLastD eye) (clean n none M))]) (done ++ [M])
      (by simp) (by simp [hlen]) (by simpa using hst) hstep k hk
    rw [List.append_assoc] at this
    exact this

theorem interMats_length (n : Nat) (E : Mat K → Mat K) (times : List K) (laps : Laps K) (lamda : K)
    (fixTau : Bool) : (interMats n E times laps lamda fixTau).length =
      if ((times.take laps.kStop).drop laps.kStart).length = 0 then 1
      else ((times.take laps.kStop).drop laps.kStart).length := by
  unfold interMats
  simp only [List.length_map, List.length_zipIdx]
  split <;> simp

end Verif.Trans
