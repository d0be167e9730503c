import Verif.Flow.Model
import Verif.Trans.Lemmas
import Mathlib.Tactic.Ring

/-!
# The flow integral with and without `sparse_dot_mkl`
-/

set_option linter.unusedSectionVars false

namespace Verif.Rename

open Verif.TempNet Verif.Trans Verif.Autocov Verif.Flow

variable {K : Type} [Field K] [LinearOrder K] [IsStrictOrderedRing K]

/-- `U` holds the part of the symmetric matrix `A` on and above the diagonal. -/
structure Half (n : Nat) (A U : Mat K) : Prop where
  symm : ∀ i j, i < n → j < n → A i j = A j i
  upper : ∀ i j, i < n → j < n → U i j = if j < i then 0 else A i j

theorem half_maxAbs {n : Nat} {A U : Mat K} (h : Half n A U) : maxAbs n U = maxAbs n A := by
  apply le_antisymm
  · refine maxAbs_le (maxAbs_nonneg _ _) fun i hi j hj => ?_
    rw [h.upper i j hi hj]
    split
    · rw [abs_zero]; exact maxAbs_nonneg _ _
    · exact abs_le_maxAbs A hi hj
  · refine maxAbs_le (maxAbs_nonneg _ _) fun i hi j hj => ?_
    by_cases hji : j < i
    · rw [h.symm i j hi hj]
      have := abs_le_maxAbs U hj hi
      rwa [h.upper j i hj hi, if_neg (by omega)] at this
    · have := abs_le_maxAbs U hi hj
      rwa [h.upper i j hi hj, if_neg hji] at this

theorem half_trim {n : Nat} {A U : Mat K} (h : Half n A U) (r : K) :
    Half n (trim n r A) (trim n r U) := by
  constructor
  · intro i j hi hj
    simp only [trim, h.symm i j hi hj]
  · intro i j hi hj
    simp only [trim, half_maxAbs h, h.upper i j hi hj]
    by_cases hji : j < i
    · simp only [hji, if_true, abs_zero]
      split <;> rfl
    · simp only [hji, if_false]

theorem half_add {n : Nat} {A U B V : Mat K} (h : Half n A U) (h' : Half n B V) :
    Half n (fun i j => A i j + B i j) (fun i j => U i j + V i j) := by
  constructor
  · intro i j hi hj
    simp only [h.symm i j hi hj, h'.symm i j hi hj]
  · intro i j hi hj
    simp only [h.upper i j hi hj, h'.upper i j hi hj]
    split
    · exact add_zero 0
    · rfl

/-- The loops with and without `sparse_dot_mkl`. -/
structure RelMkl (n : Nat) (s u : Loop K) : Prop where
  half : Half n s.ipt u.ipt
  total : u.total = s.total
  out : List.Forall₂ (EqOn n) s.out u.out

theorem half_step (inp : Input K) (hs : inp.sparse = true) (p : Nat → K) (T : Mat K) (dt : K) :
    Half inp.n (stepMatrix { inp with mkl := false } p T dt) (stepMatrix { inp with mkl := true } p T dt) := by
  constructor
  · intro i j _ _
    simp only [stepMatrix, hs, if_true, Bool.false_and, Bool.false_eq_true, if_false]
    congr 1
    exact Finset.sum_congr rfl fun k _ => mul_comm _ _
  · intro i j _ _
    simp only [stepMatrix, hs, if_true, Bool.false_and, Bool.false_eq_true, if_false, Bool.true_and,
      decide_eq_true_eq]

theorem half_stored (inp : Input K) (hs : inp.sparse = true) (p : Nat → K) {A U : Mat K}
    (h : Half inp.n A U) (total : K) :
    EqOn inp.n (stored { inp with mkl := false } p A total) (stored { inp with mkl := true } p U total) := by
  intro i hi j hj
  simp only [stored, hs, Bool.and_false, Bool.and_true, Bool.false_eq_true, if_false, if_true]
  rw [h.upper i j hi hj, h.upper j i hj hi, h.symm i j hi hj]
  rcases lt_trichotomy i j with hij | hij | hij
  · rw [if_neg (by omega), if_pos hij, if_neg (by omega), ← h.symm i j hi hj]
    ring
  · subst hij
    rw [if_neg (by omega), if_pos rfl, h.upper i i hi hi, if_neg (by omega)]
    ring
  · rw [if_pos hij, if_neg (by omega), if_neg (by omega)]
    ring

theorem integral_mkl (inp : Input K) (hs : inp.sparse = true) (p : Nat → K)
    (Ts : List (Mat K)) (ts : List K) (ks : List Nat) :
    List.Forall₂ (EqOn inp.n) (integral { inp with mkl := false } p Ts ts ks)
      (integral { inp with mkl := true } p Ts ts ks) := by
  obtain ⟨n, sparse, mats, p1, times, grid, reverse, rtol, mkl, sqrt⟩ := inp
  simp only at hs
  subst hs
  unfold integral
  have key : ∀ (l : List ((Mat K × K) × Nat)) (s u : Loop K), RelMkl n s u →
      RelMkl n (l.foldl (step ⟨n, true, mats, p1, times, grid, reverse, rtol, false, sqrt⟩ p ks) s)
        (l.foldl (step ⟨n, true, mats, p1, times, grid, reverse, rtol, true, sqrt⟩ p ks) u) := by
    intro l
    induction l with
    | nil => exact fun _ _ h => h
    | cons e l ih =>
      intro s u h
      rw [List.foldl_cons, List.foldl_cons]
      refine ih _ _ ?_
      have hh := half_add (half_trim h.half rtol)
        (half_trim (half_step ⟨n, true, mats, p1, times, grid, reverse, rtol, mkl, sqrt⟩ rfl p e.1.1 e.1.2) rtol)
      refine ⟨?_, ?_, ?_⟩
      · exact hh
      · simp only [step, h.total]
      · simp only [step, if_true, h.total]
        split
        · have hst := half_stored ⟨n, true, mats, p1, times, grid, reverse, rtol, mkl, sqrt⟩ rfl p hh (s.total + e.1.2)
          have hap : ∀ {a b c d : List (Mat K)}, List.Forall₂ (EqOn n) a b →
              List.Forall₂ (EqOn n) c d → List.Forall₂ (EqOn n) (a ++ c) (b ++ d) := by
            intro a b c d h1 h2
            induction h1 with
            | nil => exact h2
            | cons h _ ih => exact .cons h ih
          exact hap h.out (.cons hst .nil)
        · exact h.out
  refine (key _ _ _ ⟨⟨fun _ _ _ _ => rfl, fun _ _ _ _ => ?_⟩, rfl, .nil⟩).out
  simp

end Verif.Rename
