import Verif.Scripts.CovSpec
import Verif.Flow.Lemmas

/-!
# Covariance integrals: lemmas
-/

set_option linter.dupNamespace false
set_option linter.unusedSectionVars false
set_option linter.unusedSimpArgs false

namespace Verif.Scripts

open Verif.Trans Verif.Flow Verif.Autocov

variable {K : Type} [Field K] [LinearOrder K] [IsStrictOrderedRing K]

/-! ## Products and integrals -/

theorem rowNormalize_of_eqOn {n : Nat} {A B : Mat K} (h : EqOn n A B) (hB : Stoch n B) : EqOn n (rowNormalize n A) B :=
  (rowNormalize_stoch (stoch_congr h hB)).trans h

theorem prod_append_list (n : Nat) (l l' : List (Mat K)) :
    EqOn n (prod n (l ++ l')) (mul n (prod n l) (prod n l')) := by
  induction l with
  | nil => exact (eye_mul _).symm
  | cons A l ih =>
    simp only [List.cons_append, prod]
    exact (mul_congr (EqOn.refl n A) ih).trans (by rw [mul_assoc']; exact EqOn.refl n _)

theorem gram_meet {n : Nat} {T : Mat K} (hT : ∀ i < n, ∀ j < n, 0 ≤ T i j) {i j : Nat} (hi : i < n) :
    gram n (uniform n) T i j = meet n T i j := by
  unfold gram meet
  apply Finset.sum_congr rfl
  intro k hk
  rw [Finset.mem_range] at hk
  have hm : massAt n (uniform n) T k = after n (fun _ => 1 / (n : K)) T k := rfl
  have hn : (0 : K) < n := by exact_mod_cast (by omega : 0 < n)
  split
  · next h0 =>
    have h1 : ∀ i ∈ Finset.range n, 0 ≤ (1 / (n : K)) * T i k := by
      intro i hi
      exact mul_nonneg (one_div_nonneg.2 hn.le) (hT i (Finset.mem_range.1 hi) k hk)
    have h2 := (Finset.sum_eq_zero_iff_of_nonneg h1).1 h0 i (Finset.mem_range.2 hi)
    have h3 : T i k = 0 := by
      rcases mul_eq_zero.1 h2 with h | h
      · exact absurd h (by positivity)
      · exact h
    rw [h3, zero_mul, zero_mul]
  · next h0 =>
    unfold invOrOne
    rw [hm, if_neg h0]
    ring

theorem meet_congr {n : Nat} {A B : Mat K} (h : EqOn n A B) : EqOn n (meet n A) (meet n B) := by
  intro i hi j hj
  unfold meet
  apply Finset.sum_congr rfl
  intro k hk
  rw [Finset.mem_range] at hk
  have : after n (fun _ => 1 / (n : K)) A k = after n (fun _ => 1 / (n : K)) B k := by
    unfold after
    apply Finset.sum_congr rfl
    intro a ha
    rw [h a (Finset.mem_range.1 ha) k hk]
  rw [this, h i hi k hk, h j hj k hk]

theorem flowSum_snoc (n : Nat) (l : List (Mat K × K)) (e : Mat K × K) (i j : Nat) :
    flowSum n (l ++ [e]) i j = flowSum n l i j + e.2 * meet n (prod n ((l ++ [e]).map (·.1))) i j := by
  unfold flowSum
  rw [List.length_append, List.length_singleton, List.range_succ, List.map_append, List.sum_append]
  congr 1
  · congr 1
    apply List.map_congr_left
    intro m hm
    rw [List.mem_range] at hm
    rw [List.take_append_of_le_length (by omega)]
    congr 2
    simp [List.getD_eq_getElem?_getD, List.getElem?_append_left hm]
  · simp only [List.map_cons, List.map_nil, List.sum_cons, List.sum_nil, add_zero]
    rw [List.take_of_length_le (by simp)]
    simp [List.getD_eq_getElem?_getD]

/-- The integral is that of the given steps, above the diagonal. -/
def Agree (n : Nat) (s : Integ K) (l : List (Mat K × K)) (t : K) : Prop :=
  EqOn n s.T (prod n (l.map (·.1))) ∧ (∀ i < n, ∀ j < n, i ≤ j → s.itpt i j = flowSum n l i j) ∧ s.time = t

theorem agree_init (n : Nat) : Agree n (Integ.init : Integ K) [] 0 :=
  ⟨EqOn.refl n _, fun i _ j _ _ => by simp [Integ.init, flowSum], rfl⟩

theorem agree_step {cfg : Cfg K} (hsq : ∀ x : K, 0 ≤ x → cfg.sqrt x * cfg.sqrt x = x) {s : Integ K}
    {l : List (Mat K × K)} {t : K} (h : Agree cfg.n s l t) (hl : ∀ e ∈ l, Stoch cfg.n e.1) {e : Mat K × K}
    (he : Stoch cfg.n e.1) : Agree cfg.n (addStep cfg s e) (l ++ [e]) t := by
  obtain ⟨h1, h2, h3⟩ := h
  have hP : Stoch cfg.n (prod cfg.n (l.map (·.1))) := stoch_prod (by
    intro A hA
    obtain ⟨x, hx, rfl⟩ := List.mem_map.1 hA
    exact hl x hx)
  have hP2 : Stoch cfg.n (mul cfg.n (prod cfg.n (l.map (·.1))) e.1) := stoch_mul hP he
  have hT : EqOn cfg.n (addStep cfg s e).T (mul cfg.n (prod cfg.n (l.map (·.1))) e.1) := by
    refine rowNormalize_of_eqOn (mul_congr h1 (rowNormalize_stoch he)) hP2
  have hT2 : EqOn cfg.n (addStep cfg s e).T (prod cfg.n ((l ++ [e]).map (·.1))) := by
    refine hT.trans ?_
    rw [List.map_append]
    exact ((prod_append_list cfg.n (l.map (·.1)) [e.1]).trans (mul_congr (EqOn.refl _ _) (mul_eye _))).symm
  refine ⟨hT2, ?_, h3⟩
  intro i hi j hj hij
  have hnn : ∀ i < cfg.n, ∀ j < cfg.n, 0 ≤ (addStep cfg s e).T i j := by
    intro a ha b hb
    rw [hT a ha b hb]
    exact (hP2 a ha).1 b hb
  rw [flowSum_snoc, ← meet_congr hT2 i hi j hj, ← gram_meet hnn hi]
  have hstep : (addStep cfg s e).itpt i j = s.itpt i j +
      (if cfg.mkl && decide (j < i) then 0 else (∑ k ∈ Finset.range cfg.n,
        ((addStep cfg s e).T i k * cfg.sqrt (invOrOne (massAt cfg.n (uniform cfg.n) (addStep cfg s e).T) k)) *
        ((addStep cfg s e).T j k * cfg.sqrt (invOrOne (massAt cfg.n (uniform cfg.n) (addStep cfg s e).T) k))) * e.2) := rfl
  rw [hstep, h2 i hi j hj hij]
  have : (cfg.mkl && decide (j < i)) = false := by
    have : decide (j < i) = false := by simpa using hij
    rw [this, Bool.and_false]
  rw [this]
  simp only [Bool.false_eq_true, if_false]
  congr 1
  rw [mul_comm]
  congr 1
  unfold gram
  apply Finset.sum_congr rfl
  intro k hk
  have hq : 0 ≤ massAt cfg.n (uniform cfg.n) (addStep cfg s e).T k := by
    apply Finset.sum_nonneg
    intro a ha
    exact mul_nonneg (one_div_nonneg.2 (Nat.cast_nonneg _)) (hnn a (Finset.mem_range.1 ha) k (Finset.mem_range.1 hk))
  have h5 := hsq _ (invOrOne_nonneg hq)
  calc _ = (addStep cfg s e).T i k * (cfg.sqrt (invOrOne (massAt cfg.n (uniform cfg.n) (addStep cfg s e).T) k) *
        cfg.sqrt (invOrOne (massAt cfg.n (uniform cfg.n) (addStep cfg s e).T) k)) * (addStep cfg s e).T j k := by ring
    _ = _ := by rw [h5]

theorem agree_steps {cfg : Cfg K} (hsq : ∀ x : K, 0 ≤ x → cfg.sqrt x * cfg.sqrt x = x) (r : List (Mat K × K)) :
    ∀ {s : Integ K} {l : List (Mat K × K)} {t : K}, Agree cfg.n s l t → (∀ e ∈ l, Stoch cfg.n e.1) →
      (∀ e ∈ r, Stoch cfg.n e.1) → Agree cfg.n (r.foldl (addStep cfg) s) (l ++ r) t := by
  induction r with
  | nil => intro s l t h _ _; simpa using h
  | cons e r ih =>
    intro s l t h hl hr
    rw [List.foldl_cons, ← List.singleton_append, ← List.append_assoc]
    refine ih (agree_step hsq h hl (hr e (by simp))) ?_ (fun x hx => hr x (by simp [hx]))
    intro x hx
    rcases List.mem_append.1 hx with hx | hx
    · exact hl x hx
    · rw [List.mem_singleton.1 hx]; exact hr e (by simp)

theorem agree_slice {cfg : Cfg K} (hsq : ∀ x : K, 0 ≤ x → cfg.sqrt x * cfg.sqrt x = x) (reverse : Bool) {s : Integ K}
    {l : List (Mat K × K)} {t : K} (h : Agree cfg.n s l t) (hl : ∀ e ∈ l, Stoch cfg.n e.1) {sl : Slice K}
    (hs : sl.Sound cfg.n) :
    Agree cfg.n (addSlice cfg reverse s sl) (l ++ if reverse then sl.inter.reverse else sl.inter) (t + sl.span) := by
  have h1 := agree_steps hsq (if reverse then sl.inter.reverse else sl.inter) h hl (by
    intro e he
    refine hs.1 e ?_
    cases reverse
    · simpa using he
    · simpa using he)
  refine ⟨h1.1, h1.2.1, ?_⟩
  show _ + sl.span = _
  rw [h1.2.2]

/-! ## Ranges of intervals -/

/-- `b` comes after `a` in the direction of time. -/
def After (reverse : Bool) (a b : Nat) : Prop := if reverse then b < a else a < b

/-- The end of interval `k` in the direction of time. -/
def next (reverse : Bool) (k : Nat) : Nat := if reverse then k else k + 1

/-- The beginning of interval `k` in the direction of time. -/
def here (reverse : Bool) (k : Nat) : Nat := if reverse then k + 1 else k

theorem after_trans {reverse : Bool} {a b c : Nat} (h : After reverse a b) (h' : After reverse b c) : After reverse a c := by
  cases reverse <;> simp only [After, Bool.false_eq_true, if_false, if_true] at * <;> omega

theorem kRange_cons {reverse : Bool} {a b : Nat} (h : After reverse a b) :
    ∃ k, here reverse k = a ∧ (next reverse k = b ∨ After reverse (next reverse k) b) ∧
      kRange reverse a b = k :: kRange reverse (next reverse k) b := by
  cases reverse
  · simp only [After, Bool.false_eq_true, if_false] at h
    refine ⟨a, rfl, ?_, ?_⟩
    · simp only [next, After, Bool.false_eq_true, if_false]; omega
    · simp only [kRange, next, Bool.false_eq_true, if_false]
      obtain ⟨d, hd⟩ : ∃ d, b - a = d + 1 := ⟨b - a - 1, by omega⟩
      have : b - (a + 1) = d := by omega
      rw [hd, this, List.range'_succ]
  · simp only [After, if_true] at h
    refine ⟨a - 1, by simp only [here, if_true]; omega, ?_, ?_⟩
    · simp only [next, After, if_true]; omega
    · simp only [kRange, next, if_true]
      obtain ⟨d, hd⟩ : ∃ d, a - b = d + 1 := ⟨a - b - 1, by omega⟩
      have : a - 1 - b = d := by omega
      rw [hd, this, List.range'_concat, List.reverse_append]
      simp; omega

theorem kRange_self (reverse : Bool) (a : Nat) : kRange reverse a a = [] := by
  cases reverse <;> simp [kRange]

theorem stepsOf_self (slices : Nat → Option (Slice K)) (reverse : Bool) (a : Nat) : stepsOf slices reverse a a = [] := by
  cases reverse <;> simp [stepsOf]

theorem spanOf_self (slices : Nat → Option (Slice K)) (reverse : Bool) (a : Nat) : spanOf slices reverse a a = 0 := by
  cases reverse <;> simp [spanOf]

/-- Interval `k` is passed in the direction of time after the start. -/
def Passed (reverse : Bool) (start k : Nat) : Prop := if reverse then k < start else start ≤ k

theorem steps_next {slices : Nat → Option (Slice K)} {reverse : Bool} {start k : Nat} (h : Passed reverse start k)
    {sl : Slice K} (hs : slices k = some sl) :
    stepsOf slices reverse start (next reverse k) =
      stepsOf slices reverse start (here reverse k) ++ (if reverse then sl.inter.reverse else sl.inter) ∧
    spanOf slices reverse start (next reverse k) = spanOf slices reverse start (here reverse k) + sl.span := by
  cases reverse
  · simp only [Passed, Bool.false_eq_true, if_false] at h
    simp only [stepsOf, spanOf, next, here, Bool.false_eq_true, if_false]
    have e1 : k + 1 - start = (k - start) + 1 := by omega
    have e2 : start + 1 * (k - start) = k := by omega
    rw [e1, List.range'_concat, List.flatMap_append, List.map_append, List.sum_append, e2]
    simp [hs]
  · simp only [Passed, if_true] at h
    simp only [stepsOf, spanOf, next, here, if_true]
    have e1 : start - k = (start - (k + 1)) + 1 := by omega
    rw [e1, List.range'_succ, List.flatMap_cons, List.reverse_append, List.map_cons, List.sum_cons]
    simp [hs, add_comm]

theorem steps_stoch {n : Nat} {slices : Nat → Option (Slice K)} {reverse : Bool} {a b : Nat}
    (h : ∀ k, k < max a b → ∃ s, slices k = some s ∧ s.Sound n) : ∀ e ∈ stepsOf slices reverse a b, Stoch n e.1 := by
  intro e he
  have : ∃ k < max a b, e ∈ ((slices k).map Slice.inter).getD [] := by
    cases reverse
    · simp only [stepsOf, Bool.false_eq_true, if_false, List.mem_flatMap, List.mem_range'_1] at he
      obtain ⟨k, hk, hk2⟩ := he
      exact ⟨k, by omega, hk2⟩
    · simp only [stepsOf, if_true, List.mem_reverse, List.mem_flatMap, List.mem_range'_1] at he
      obtain ⟨k, hk, hk2⟩ := he
      exact ⟨k, by omega, hk2⟩
  obtain ⟨k, hk, hk2⟩ := this
  obtain ⟨s, hs, hs2⟩ := h k hk
  rw [hs] at hk2
  exact hs2.1 e hk2

/-! ## Loading of transition matrices -/

theorem loadTrans_loop {cfg : Cfg K} (kind : Kind) (reverse : Bool) (start stop : Nat) (limit : Nat)
    (hlim : start ≤ limit) (hlim2 : stop ≤ limit)
    (hf : ∀ k, k < limit → ∃ s, cfg.slices kind k = some s ∧ s.Sound cfg.n) :
    ∀ (d a : Nat), (a = stop ∨ After reverse a stop) → (a = start ∨ After reverse start a) →
      (if reverse then a - stop else stop - a) = d → ∀ T : Mat K,
      EqOn cfg.n T (prod cfg.n ((stepsOf (cfg.slices kind) reverse start a).map (·.1))) →
      ∃ T', (kRange reverse a stop).foldlM (fun s k =>
          match cfg.slices kind k with
          | none => .error .missing
          | some sl => .ok (rowNormalize cfg.n (mul cfg.n s.1 (rowNormalize cfg.n (if reverse then sl.back else sl.forw))),
              s.2 + sl.span)) (T, spanOf (cfg.slices kind) reverse start a) =
          (.ok (T', spanOf (cfg.slices kind) reverse start stop) : Except CovErr (Mat K × K)) ∧
        EqOn cfg.n T' (prod cfg.n ((stepsOf (cfg.slices kind) reverse start stop).map (·.1))) := by
  intro d
  induction d with
  | zero =>
    intro a h1 h2 hd T hT
    have : a = stop := by
      rcases h1 with h1 | h1
      · exact h1
      · cases reverse <;> simp only [After, Bool.false_eq_true, if_false, if_true] at h1 hd <;> omega
    subst this
    rw [kRange_self]
    exact ⟨T, rfl, hT⟩
  | succ d ih =>
    intro a h1 h2 hd T hT
    have ha : After reverse a stop := by
      rcases h1 with h1 | h1
      · subst h1; simp at hd
      · exact h1
    obtain ⟨k, hk1, hk2, hk3⟩ := kRange_cons ha
    have hkl : k < limit := by
      cases reverse <;> simp only [here, After, Bool.false_eq_true, if_false, if_true] at hk1 ha h2 <;> omega
    have hpass : Passed reverse start k := by
      cases reverse <;> simp only [here, After, Passed, Bool.false_eq_true, if_false, if_true] at hk1 ha h2 ⊢ <;> omega
    obtain ⟨sl, hsl, hsound⟩ := hf k hkl
    obtain ⟨e1, e2⟩ := steps_next hpass hsl
    rw [hk3, List.foldlM_cons]
    simp only [hsl]
    have hstep : EqOn cfg.n (rowNormalize cfg.n (mul cfg.n T (rowNormalize cfg.n (if reverse then sl.back else sl.forw))))
        (prod cfg.n ((stepsOf (cfg.slices kind) reverse start (next reverse k)).map (·.1))) := by
      have hst : ∀ e ∈ stepsOf (cfg.slices kind) reverse start (here reverse k), Stoch cfg.n e.1 := by
        refine steps_stoch fun m hm => hf m ?_
        rw [hk1] at hm
        cases reverse <;> simp only [After, Bool.false_eq_true, if_false, if_true] at ha h2 <;> omega
      have hsl2 : EqOn cfg.n (if reverse then sl.back else sl.forw)
          (prod cfg.n ((if reverse then sl.inter.reverse else sl.inter).map (·.1))) := by
        cases reverse
        · simpa using hsound.2.1
        · simpa using hsound.2.2
      have hsl3 : Stoch cfg.n (prod cfg.n ((if reverse then sl.inter.reverse else sl.inter).map (·.1))) := by
        refine stoch_prod fun A hA => ?_
        obtain ⟨x, hx, rfl⟩ := List.mem_map.1 hA
        refine hsound.1 x ?_
        cases reverse
        · simpa using hx
        · simpa using hx
      have hP : Stoch cfg.n (prod cfg.n ((stepsOf (cfg.slices kind) reverse start (here reverse k)).map (·.1))) := by
        refine stoch_prod fun A hA => ?_
        obtain ⟨x, hx, rfl⟩ := List.mem_map.1 hA
        exact hst x hx
      rw [e1, List.map_append]
      refine EqOn.trans (rowNormalize_of_eqOn (B := mul cfg.n (prod cfg.n ((stepsOf (cfg.slices kind) reverse start
        (here reverse k)).map (·.1))) (prod cfg.n ((if reverse then sl.inter.reverse else sl.inter).map (·.1)))) ?_ ?_) ?_
      · exact mul_congr (by rw [hk1]; exact hT) (rowNormalize_of_eqOn hsl2 hsl3)
      · exact stoch_mul hP hsl3
      · exact (prod_append_list _ _ _).symm
    have hspan : spanOf (cfg.slices kind) reverse start a + sl.span = spanOf (cfg.slices kind) reverse start (next reverse k) := by
      rw [e2, hk1]
    rw [hspan]
    refine ih (next reverse k) (hk2.imp_left id) ?_ ?_ _ hstep
    · right
      cases reverse <;> simp only [next, Passed, After, Bool.false_eq_true, if_false, if_true] at hpass ⊢ <;> omega
    · cases reverse <;> simp only [here, next, After, Bool.false_eq_true, if_false, if_true] at hk1 hd ha ⊢ <;> omega

theorem loadTrans_spec {cfg : Cfg K} (kind : Kind) (reverse : Bool) {start stop : Nat} (h : After reverse start stop)
    (hf : ∀ k, k < max start stop → ∃ s, cfg.slices kind k = some s ∧ s.Sound cfg.n) :
    ∃ T, loadTrans cfg kind reverse (kRange reverse start stop) = .ok (T, spanOf (cfg.slices kind) reverse start stop) ∧
      EqOn cfg.n T (prod cfg.n ((stepsOf (cfg.slices kind) reverse start stop).map (·.1))) := by
  have := loadTrans_loop kind reverse start stop (max start stop) (le_max_left _ _) (le_max_right _ _) hf _ start
    (.inr h) (.inl rfl) rfl eye (by rw [stepsOf_self]; exact EqOn.refl _ _)
  rw [spanOf_self] at this
  exact this

end Verif.Scripts
