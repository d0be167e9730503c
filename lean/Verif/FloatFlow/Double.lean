import Verif.FloatFlow.Stability
import Verif.FloatTrans.Double

/-!
# C109 in IEEE double precision
-/

set_option linter.unusedSectionVars false

namespace Verif.FloatFlow

open Verif.FloatTrans (rnd rnd_spec rnd_nonneg tiny huge unit unit_nonneg tiny_nonneg bern)
open Verif.Rounding (fl fl_spec nearest exponent exponent_spec)
open Verif.Flow (meanCov flowSteps)

/-- Arithmetic in double precision, with gradual underflow; a result above `2^1023` is replaced by
`ovf` of it.  The products of an entry of `A @ B` are added from left to right. -/
def ieee (ovf : ℚ → ℚ) : Ops ℚ where
  zero := 0
  one := 1
  add := fun a b => rnd ovf (a + b)
  sub := fun a b => rnd ovf (a - b)
  neg := fun a => -a
  mul := fun a b => rnd ovf (a * b)
  div := fun a b => rnd ovf (a / b)
  isZero := fun a => decide (a = 0)
  lt := fun a b => decide (a < b)
  dot := fun
    | [] => 0
    | e :: l => l.foldl (fun s e => rnd ovf (s + rnd ovf (e.1 * e.2))) (rnd ovf (e.1 * e.2))

theorem rnd_zero (ovf : ℚ → ℚ) : rnd ovf 0 = 0 := by
  have h1 : ¬ huge < |(0 : ℚ)| := by
    rw [abs_zero, huge, not_lt]
    positivity
  have h2 : |(0 : ℚ)| < tiny := by
    rw [abs_zero, tiny]
    positivity
  have h3 : nearest 0 = 0 := by
    unfold nearest
    norm_num
  rw [rnd, if_neg h1, if_pos h2, zero_mul, h3]
  norm_num

theorem rnd_rel (ovf : ℚ → ℚ) {x : ℚ} (h0 : 0 ≤ x) (h : InRange tiny huge x) : |rnd ovf x - x| ≤ unit * x := by
  rcases h with h | ⟨h1, h2⟩
  · subst h
    rw [rnd_zero, sub_self, abs_zero, mul_zero]
  · have := rnd_spec ovf x (by rw [abs_of_nonneg h0]; exact h2)
    rwa [abs_of_nonneg h0, max_eq_left h1] at this

theorem floor_le_nearest (y : ℚ) : ⌊y⌋ ≤ nearest y := by
  unfold nearest
  simp only
  split
  · exact le_rfl
  · split
    · omega
    · split <;> omega

theorem tiny_le_rnd (ovf : ℚ → ℚ) {x : ℚ} (h1 : tiny ≤ x) (h2 : x ≤ huge) : tiny ≤ rnd ovf x := by
  have hx : 0 < x := lt_of_lt_of_le (by unfold tiny; positivity) h1
  rw [rnd, abs_of_pos hx, if_neg (not_lt.2 h2), if_neg (not_lt.2 h1), fl, if_neg hx.ne', abs_of_pos hx]
  obtain ⟨e1, e2⟩ := exponent_spec hx
  set k := exponent x with hk
  have hp : (0 : ℚ) < 2 ^ (k - 52) := zpow_pos (by norm_num) _
  have hy : ((2 ^ 52 : ℤ) : ℚ) ≤ x / 2 ^ (k - 52) := by
    rw [le_div_iff₀ hp]
    have : ((2 ^ 52 : ℤ) : ℚ) * 2 ^ (k - 52) = 2 ^ k := by
      rw [zpow_sub₀ (by norm_num)]
      norm_num
      ring
    rw [this]
    exact e1
  have hn : (2 ^ 52 : ℤ) ≤ nearest (x / 2 ^ (k - 52)) := (Int.le_floor.2 hy).trans (floor_le_nearest _)
  have hn' : (2 ^ 52 : ℚ) ≤ nearest (x / 2 ^ (k - 52)) := by exact_mod_cast hn
  have h3 : (2 : ℚ) ^ k ≤ nearest (x / 2 ^ (k - 52)) * 2 ^ (k - 52) := by
    refine le_trans (le_of_eq ?_) (mul_le_mul_of_nonneg_right hn' hp.le)
    rw [zpow_sub₀ (by norm_num)]
    have : (2 : ℚ) ^ (52 : ℤ) = 2 ^ 52 := by norm_cast
    rw [this]
    field_simp
  refine le_trans ?_ h3
  have e : tiny = (2 : ℚ) ^ (-1022 : ℤ) := by
    rw [tiny, zpow_neg, one_div, show (1022 : ℤ) = ((1022 : ℕ) : ℤ) from rfl, zpow_natCast]
  rw [e] at h1 ⊢
  have : (-1022 : ℤ) < k + 1 := by
    by_contra hc
    have := zpow_le_zpow_right₀ (show (1 : ℚ) ≤ 2 by norm_num) (not_lt.1 hc)
    linarith
  exact zpow_le_zpow_right₀ (by norm_num) (by omega)

attribute [local irreducible] rnd tiny huge unit

theorem unit_le_one : unit ≤ 1 := by unfold unit; norm_num

/-- Adding the products from left to right. -/
theorem dot_fold (ovf : ℚ → ℚ) (l : List (ℚ × ℚ)) :
    ∀ (s A : ℚ) (c : Nat), 0 ≤ A → (1 - unit) ^ (c + 1) * A ≤ s → s ≤ (1 + unit) ^ (c + 1) * A → (s = 0 ∨ tiny ≤ s) →
    (∀ e ∈ l, 0 ≤ e.1 ∧ 0 ≤ e.2 ∧ (e.1 * e.2 = 0 ∨ tiny ≤ e.1 * e.2)) →
    (1 + unit) ^ (c + 1 + l.length) * (A + (l.map fun e => e.1 * e.2).sum) ≤ huge →
    let t := l.foldl (fun s e => rnd ovf (s + rnd ovf (e.1 * e.2))) s
    (1 - unit) ^ (c + 1 + l.length) * (A + (l.map fun e => e.1 * e.2).sum) ≤ t ∧
      t ≤ (1 + unit) ^ (c + 1 + l.length) * (A + (l.map fun e => e.1 * e.2).sum) := by
  have hu := unit_nonneg
  have hu1 := unit_le_one
  have ht := tiny_nonneg
  induction l with
  | nil =>
    intro s A c hA h1 h2 _ _ _
    simpa using ⟨h1, h2⟩
  | cons e l ih =>
    intro s A c hA h1 h2 h3 hl hh
    obtain ⟨he1, he2, he3⟩ := hl e (by simp)
    set x := e.1 * e.2 with hx
    have hx0 : 0 ≤ x := mul_nonneg he1 he2
    set R := (l.map fun e => e.1 * e.2).sum with hR
    have hR0 : 0 ≤ R := List.sum_nonneg fun y hy => by
      obtain ⟨z, hz, rfl⟩ := List.mem_map.1 hy
      exact mul_nonneg (hl z (by simp [hz])).1 (hl z (by simp [hz])).2.1
    simp only [List.map_cons, List.sum_cons, List.length_cons, List.foldl_cons] at hh ⊢
    rw [← hx, ← hR] at hh ⊢
    have hone : (1 : ℚ) ≤ 1 + unit := by linarith
    have hP : ∀ k : Nat, (1 : ℚ) ≤ (1 + unit) ^ k := fun k => one_le_pow₀ hone
    have hQ0 : ∀ k : Nat, (0 : ℚ) ≤ (1 - unit) ^ k := fun k => pow_nonneg (by linarith) _
    have hQ1 : ∀ k : Nat, (1 - unit) ^ k ≤ (1 : ℚ) := fun k => pow_le_one₀ (by linarith) (by linarith)
    have hs0 : 0 ≤ s := by rcases h3 with h | h <;> linarith
    have hmono : (1 + unit) ^ (c + 2) * (A + x) ≤ huge := by
      refine le_trans (mul_le_mul (pow_le_pow_right₀ hone (by omega)) (by linarith) (by linarith) ?_) hh
      linarith [hP (c + 1 + (l.length + 1))]
    have hxh : x ≤ huge := by
      have := mul_le_mul_of_nonneg_right (hP (c + 2)) (show 0 ≤ A + x by linarith)
      linarith
    -- the product
    have hy := rnd_rel ovf hx0 (he3.imp id fun h => ⟨h, hxh⟩)
    set y := rnd ovf x with hyd
    obtain ⟨hy1, hy2⟩ := abs_le.1 hy
    have hy3 : y = 0 ∨ tiny ≤ y := by
      rcases he3 with h | h
      · left
        rw [hyd, h, rnd_zero]
      · right
        exact tiny_le_rnd ovf h hxh
    have hy0 : 0 ≤ y := by rcases hy3 with h | h <;> linarith
    have hylo : (1 - unit) ^ (c + 1) * x ≤ y := by
      have : (1 - unit) ^ (c + 1) * x ≤ (1 - unit) * x := by
        rw [pow_succ]
        have := mul_le_mul_of_nonneg_right (hQ1 c) (show 0 ≤ (1 - unit) * x from mul_nonneg (by linarith) hx0)
        linarith
      linarith
    have hyhi : y ≤ (1 + unit) ^ (c + 1) * x := by
      have : (1 + unit) * x ≤ (1 + unit) ^ (c + 1) * x := by
        rw [pow_succ]
        have := mul_le_mul_of_nonneg_right (hP c) (show 0 ≤ (1 + unit) * x from mul_nonneg (by linarith) hx0)
        linarith
      linarith
    -- the sum
    have hsum : s + y ≤ (1 + unit) ^ (c + 1) * (A + x) := by rw [mul_add]; linarith
    have hsumlo : (1 - unit) ^ (c + 1) * (A + x) ≤ s + y := by rw [mul_add]; linarith
    have hsh : s + y ≤ huge := by
      have : (1 + unit) ^ (c + 1) * (A + x) ≤ (1 + unit) ^ (c + 2) * (A + x) :=
        mul_le_mul_of_nonneg_right (pow_le_pow_right₀ hone (by omega)) (by linarith)
      linarith
    have hcase : s + y = 0 ∨ tiny ≤ s + y := by
      rcases h3 with h | h
      · rcases hy3 with g | g
        · left; rw [h, g, add_zero]
        · right; linarith
      · right; linarith
    have hz := rnd_rel ovf (add_nonneg hs0 hy0) (hcase.imp id fun h => ⟨h, hsh⟩)
    obtain ⟨hz1, hz2⟩ := abs_le.1 hz
    have := ih (rnd ovf (s + y)) (A + x) (c + 1) (by linarith) (by
        have := mul_le_mul_of_nonneg_left hsumlo (show 0 ≤ 1 - unit by linarith)
        rw [pow_succ (1 - unit) (c + 1)]
        linarith) (by
        have := mul_le_mul_of_nonneg_left hsum (show 0 ≤ 1 + unit by linarith)
        rw [pow_succ (1 + unit) (c + 1)]
        linarith) (by
        rcases hcase with h | h
        · left; rw [h, rnd_zero]
        · right; exact tiny_le_rnd ovf h hsh)
      (fun z hz => hl z (by simp [hz]))
      (by rw [show c + 1 + 1 + l.length = c + 1 + (l.length + 1) by omega, add_assoc A x]; exact hh)
    rw [show c + 1 + 1 + l.length = c + 1 + (l.length + 1) by omega, add_assoc A x] at this
    exact this

/-- Double precision satisfies the assumptions, with `u = 2^(-53)`, underflow below `2^(-1022)` and
no overflow up to `2^1023`. -/
theorem ieee_rounds (ovf : ℚ → ℚ) : Rounds unit tiny huge (ieee ovf) where
  zero := rfl
  one := rfl
  neg := fun _ => rfl
  isZero := fun _ => rfl
  lt := fun _ _ => rfl
  add := fun a b ha hb h => rnd_rel ovf (add_nonneg ha hb) h
  sub := fun a b h => rnd_spec ovf (a - b) h
  mul := fun a b ha hb h => rnd_rel ovf (mul_nonneg ha hb) h
  div := fun a b ha hb h => rnd_rel ovf (div_nonneg ha hb.le) h
  dot := fun l hl h => by
    rcases l with _ | ⟨e, l⟩
    · simp [ieee]
    · have hu := unit_nonneg
      have hu1 := unit_le_one
      obtain ⟨he1, he2, he3⟩ := hl e (by simp)
      have hx0 : 0 ≤ e.1 * e.2 := mul_nonneg he1 he2
      have hR0 : 0 ≤ (l.map fun e => e.1 * e.2).sum := List.sum_nonneg fun y hy => by
        obtain ⟨z, hz, rfl⟩ := List.mem_map.1 hy
        exact mul_nonneg (hl z (by simp [hz])).1 (hl z (by simp [hz])).2.1
      simp only [List.map_cons, List.sum_cons, List.length_cons] at h ⊢
      have hxh : e.1 * e.2 ≤ huge := by
        have := mul_le_mul_of_nonneg_right (one_le_pow₀ (show (1 : ℚ) ≤ 1 + unit by linarith) (n := l.length + 1))
          (show 0 ≤ e.1 * e.2 + (l.map fun e => e.1 * e.2).sum by linarith)
        linarith
      have hy := rnd_rel ovf hx0 (he3.imp id fun h => ⟨h, hxh⟩)
      obtain ⟨hy1, hy2⟩ := abs_le.1 hy
      have := dot_fold ovf l (rnd ovf (e.1 * e.2)) (e.1 * e.2) 0 hx0 (by rw [zero_add, pow_one]; linarith)
        (by rw [zero_add, pow_one]; linarith) (by
          rcases he3 with h | h
          · left; rw [h, rnd_zero]
          · right; exact tiny_le_rnd ovf h hxh)
        (fun z hz => hl z (by simp [hz])) (by rw [show 0 + 1 + l.length = l.length + 1 by omega]; exact h)
      rw [show 0 + 1 + l.length = l.length + 1 by omega] at this
      exact this

/-- Numbers of ordinary size, in double precision: zero, or between `2^(-100)` and `2^100`. -/
def ordinary : ℚ := 1 / 2 ^ 100

theorem half_le (L : Nat) (hL : L ≤ 2 ^ 52) : (1 : ℚ) / 2 ≤ (1 - unit) ^ L := by
  refine le_trans ?_ (bern (u := unit) unit_nonneg unit_le_one L)
  have hL' : (L : ℚ) ≤ 2 ^ 52 := by exact_mod_cast hL
  have : (L : ℚ) * unit ≤ 2 ^ 52 * unit := mul_le_mul_of_nonneg_right hL' unit_nonneg
  have e : (2 : ℚ) ^ 52 * unit = 1 / 2 := by unfold unit; norm_num
  linarith

theorem roomy (L : Nat) (hL : L ≤ 2 ^ 52) : Roomy unit tiny huge ordinary L := by
  have h1 := half_le L hL
  have e10 : ordinary ^ 10 = 1 / 2 ^ 1000 := by unfold ordinary; rw [div_pow, one_pow, ← pow_mul]
  have et : tiny = 1 / 2 * (1 / 2 ^ 1000) * (1 / 2 ^ 21) := by
    rw [tiny, show (2 : ℚ) ^ 1022 = 2 * 2 ^ 1000 * 2 ^ 21 by rw [← pow_succ', ← pow_add]]
    field_simp
  have eh : 1 / 2 ^ 1000 * huge = 2 ^ 23 := by
    rw [huge, show (2 : ℚ) ^ 1023 = 2 ^ 1000 * 2 ^ 23 by rw [← pow_add]]
    field_simp
  have hp : (0 : ℚ) < 1 / 2 ^ 1000 := by positivity
  refine ⟨unit_nonneg, by unfold unit; norm_num, by unfold tiny; positivity, by unfold ordinary; positivity,
    by unfold ordinary; norm_num, ?_, ?_⟩
  · rw [e10, et]
    have a := mul_le_mul_of_nonneg_right h1 hp.le
    have b : (1 : ℚ) / 2 * (1 / 2 ^ 1000) * (1 / 2 ^ 21) ≤ 1 / 2 * (1 / 2 ^ 1000) * 1 :=
      mul_le_mul_of_nonneg_left (by norm_num) (by positivity)
    linarith
  · rw [e10, eh]
    have := mul_le_mul_of_nonneg_right h1 (show (0 : ℚ) ≤ 2 ^ 23 by norm_num)
    refine le_trans ?_ this
    norm_num

theorem factor_le (L : Nat) (hL : L ≤ 2 ^ 52) : (1 - unit)⁻¹ ^ L - 1 ≤ (L : ℚ) / 2 ^ 52 := by
  have h1 := half_le L hL
  have h2 := bern (u := unit) unit_nonneg unit_le_one L
  have e : (L : ℚ) / 2 ^ 52 = 2 * (L * unit) := by unfold unit; ring
  rw [e, inv_pow, sub_le_iff_le_add]
  have hp : 0 < (1 - unit) ^ L := by linarith
  rw [inv_le_iff_one_le_mul₀ hp]
  have hL' : (L : ℚ) ≤ 2 ^ 52 := by exact_mod_cast hL
  have hx : (L : ℚ) * unit ≤ 1 / 2 := by
    have : (L : ℚ) * unit ≤ 2 ^ 52 * unit := mul_le_mul_of_nonneg_right hL' unit_nonneg
    have e : (2 : ℚ) ^ 52 * unit = 1 / 2 := by unfold unit; norm_num
    linarith
  have hx0 : 0 ≤ (L : ℚ) * unit := mul_nonneg (by positivity) unit_nonneg
  set x := (L : ℚ) * unit
  have a := mul_le_mul_of_nonneg_left h2 (show 0 ≤ 2 * x + 1 by linarith)
  have b : (1 : ℚ) ≤ (2 * x + 1) * (1 - x) := by
    have := mul_nonneg hx0 (show 0 ≤ 1 - 2 * x by linarith)
    linarith
  linarith

/-- **C109** in double precision: as long as the probabilities and the lengths of the steps are zero
or between `2^(-100)` and `2^100`, each covariance is exact up to the number of roundings times
`2^(-52)`, relative to the two terms whose difference it is. -/
theorem C109_double (ovf : ℚ → ℚ) (reverse : Bool) {n : Nat} {p : Nat → ℚ} {Ms : List (Mat ℚ)} (hne : Ms ≠ [])
    (hsize : roundings n Ms.length < 2 ^ 52) {ts : List ℚ} (hts : ts.Pairwise (· < ·))
    (hl : ts.length = Ms.length + 1)
    (hmod : ModerateFlow (1 / 2 ^ 100) n p Ms (flowSteps n reverse Ms ts Ms.length)) (ks : List Nat) :
    ∃ Ts, tList (ieee ovf) n reverse Ms = some Ts ∧ ∃ J : Nat → Mat ℚ,
      iList (ieee ovf) n p Ts (if reverse then ts.reverse else ts) ks =
        ((List.range' 1 Ms.length).filter fun m => decide (m ∈ ks)).map J ∧
      ∀ m, 1 ≤ m → m ≤ Ms.length → ∀ i < n, ∀ j < n,
        let cov := meanCov n p (flowSteps n reverse Ms ts m) i j
        |J m i j - cov| ≤ (roundings n m + 1) / 2 ^ 52 * (cov + 2 * (p i * p j)) + 1 / 2 ^ 1075 := by
  obtain ⟨Ts, hTs, J, hJ, hval⟩ := C109_error_partial (ieee_rounds ovf) reverse hne
    (roomy (roundings n Ms.length) hsize.le) hts hl hmod ks
  refine ⟨Ts, hTs, J, hJ, ?_⟩
  intro m hm1 hm i hi j hj cov
  refine (hval m hm1 hm i hi j hj).trans ?_
  have h1 : unit * tiny = 1 / 2 ^ 1075 := by
    rw [unit, tiny, div_mul_div_comm, one_mul, ← pow_add]
  rw [h1]
  have h2 := factor_le (roundings n m + 1) (by have := roundings_mono (n := n) hm; omega)
  push_cast at h2
  have hp0 : ∀ i < n, 0 ≤ p i := fun i hi => (hmod.start i hi).1
  have h3 : 0 ≤ cov + 2 * (p i * p j) := by
    have a := meanCov_ge hp0 (l := flowSteps n reverse Ms ts m) (fun e he => by
      have hsub : e ∈ flowSteps n reverse Ms ts Ms.length := by
        rw [flowSteps_eq] at he ⊢
        obtain ⟨k, hk, rfl⟩ := List.mem_map.1 he
        exact List.mem_map.2 ⟨k, List.mem_range.2 ((List.mem_range.1 hk).trans_le hm), rfl⟩
      exact ⟨(hmod.flow e hsub).1.1, fun i hi j hj => ((hmod.flow e hsub).2 i hi j hj).1⟩) hi hj
    have b := mul_nonneg (hp0 i hi) (hp0 j hj)
    have c : cov = meanCov n p (flowSteps n reverse Ms ts m) i j := rfl
    linarith
  have := mul_le_mul_of_nonneg_right h2 h3
  linarith

/-! ## Examples -/

/-- Two nodes. -/
def exM : Mat ℚ := fun i j => ([[3 / 8, 5 / 8], [1 / 4, 3 / 4]].getD i []).getD j 0

/-- Probabilities at the start. -/
def exP : Nat → ℚ := fun i => [1 / 8, 7 / 8].getD i 0

theorem ex_moderate : ModerateFlow (1 / 2 ^ 100) 2 exP [exM, exM] (flowSteps 2 false [exM, exM] [0, 1, 3] 2) := by
  have hsteps : ∀ e ∈ flowSteps 2 false [exM, exM] [0, 1, 3] 2, (e.1 = 1 ∨ e.1 = 2) ∧
      ∀ i < 2, ∀ j < 2, 1 / 4 ≤ e.2 i j ∧ e.2 i j ≤ 3 / 4 := by
    decide +kernel
  have hM : ∀ i < 2, ∀ j < 2, 1 / 4 ≤ exM i j ∧ exM i j ≤ 3 / 4 := by decide +kernel
  have hp : ∀ i < 2, 1 / 8 ≤ exP i ∧ exP i ≤ 1 := by decide +kernel
  have key : ∀ x : ℚ, 1 / 8 ≤ x → x ≤ 2 → 0 ≤ x ∧ Moderate (1 / 2 ^ 100) x := by
    intro x h1 h2
    refine ⟨by linarith, Or.inr ⟨?_, ?_⟩⟩
    · refine le_trans ?_ h1
      norm_num
    · have := mul_le_mul_of_nonneg_left h2 (show (0 : ℚ) ≤ 1 / 2 ^ 100 by positivity)
      refine this.trans ?_
      norm_num
  refine ⟨by norm_num, by norm_num [flowSteps], fun i hi => key _ (hp i hi).1 (by linarith [(hp i hi).2]), ?_, ?_⟩
  · intro M hM' i hi j hj
    have : M = exM := by simpa using hM'
    subst this
    exact key _ (by linarith [(hM i hi j hj).1]) (by linarith [(hM i hi j hj).2])
  · intro e he
    obtain ⟨h1, h2⟩ := hsteps e he
    refine ⟨?_, fun i hi j hj => key _ (by linarith [(h2 i hi j hj).1]) (by linarith [(h2 i hi j hj).2])⟩
    have h3 : 1 ≤ e.1 ∧ e.1 ≤ 2 := by rcases h1 with h | h <;> rw [h] <;> norm_num
    exact ⟨by linarith, (key _ (by linarith) h3.2).2⟩

example (ovf : ℚ → ℚ) := C109_double ovf false (n := 2) (p := exP) (Ms := [exM, exM]) (by simp)
  (by norm_num [roundings]) (ts := [0, 1, 3]) (by norm_num) rfl ex_moderate [0, 1, 2]

example (ovf : ℚ → ℚ) := C109_error_partial (ieee_rounds ovf) false (n := 2) (p := exP) (Ms := [exM, exM]) (by simp)
  (roomy _ (by norm_num [roundings])) (ts := [0, 1, 3]) (by norm_num) rfl ex_moderate [0, 1, 2]

example (ovf : ℚ → ℚ) := C109_stability_partial (ieee_rounds ovf) false (n := 2) (p := exP) (Ms := [exM, exM]) (by simp)
  (roomy _ (by norm_num [roundings])) (ts := [0, 1, 3]) (by norm_num) rfl ex_moderate (R := 1) (S := 1) (by norm_num)
  (by decide +kernel) (by decide +kernel) [0, 1, 2]

/-- Cumulative matrices of the same flow. -/
def exTs : List (Mat ℚ) := [Trans.prod 2 [exM], Trans.prod 2 [exM, exM]]

theorem ex_given : ModerateFlow (1 / 2 ^ 100) 2 exP [] (givenSteps false exTs [0, 1, 3] exTs.length) := by
  obtain ⟨h1, -, h3, -, h5⟩ := ex_moderate
  refine ⟨h1, by norm_num [givenSteps, exTs], h3, by simp, ?_⟩
  intro e he
  apply h5
  rw [flowSteps_eq]
  exact he

example (ovf : ℚ → ℚ) := C109_given_partial (ieee_rounds ovf) false (n := 2) (p := exP) (Ts := exTs)
  (by simp [exTs]) (roomy _ (by norm_num [exTs])) (ts := [0, 1, 3]) (by norm_num) rfl ex_given [0, 1, 2]

end Verif.FloatFlow
