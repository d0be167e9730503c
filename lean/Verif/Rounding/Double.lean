import Verif.Rounding.Errors
import Mathlib.Algebra.Order.Floor.Ring
import Mathlib.Data.Rat.Floor

/-!
# Double precision

Binary floating point with 53 significant bits, rounding to nearest and ties to even, on
rational numbers.  The range of exponents is not limited, so there is no overflow.
-/

set_option linter.unusedSectionVars false

namespace Verif.Rounding

/-- The exponent `k` with `2^k ≤ x < 2^(k+1)`, for positive `x`. -/
def exponent (x : ℚ) : Int :=
  let k : Int := (Nat.log2 x.num.natAbs : Int) - (Nat.log2 x.den : Int)
  if (2 : ℚ) ^ k ≤ x then k else k - 1

/-- The nearest integer, halves to the even one. -/
def nearest (y : ℚ) : Int :=
  let f := ⌊y⌋
  if y - f < 1 / 2 then f
  else if 1 / 2 < y - f then f + 1
  else if f % 2 = 0 then f
  else f + 1

/-- Rounding to 53 significant bits. -/
def fl (x : ℚ) : ℚ :=
  if x = 0 then 0
  else nearest (x / 2 ^ (exponent |x| - 52)) * 2 ^ (exponent |x| - 52)

/-- Arithmetic in double precision; sums are computed from left to right. -/
def double : Arith ℚ where
  zero := 0
  one := 1
  add := fun a b => fl (a + b)
  sub := fun a b => fl (a - b)
  neg := fun a => -a
  div := fun a b => fl (a / b)
  sum := fun l => l.foldl (fun s x => fl (s + x)) 0
  sum2 := fun l => l.flatten.foldl (fun s x => fl (s + x)) 0
  le := fun a b => decide (a ≤ b)
  lt := fun a b => decide (a < b)
  isclose := fun a b => decide (Louvain.isclose a b)
  negligible := fun n l => l.all fun r => r.all fun x => decide (|x| < (1 / 10 ^ 6) / (n : ℚ) ^ 2)

theorem exponent_spec {x : ℚ} (hx : 0 < x) :
    (2 : ℚ) ^ exponent x ≤ x ∧ x < 2 ^ (exponent x + 1) := by
  have hnum : 0 < x.num := Rat.num_pos.2 hx
  have hn : x.num.natAbs ≠ 0 := by omega
  have hd : x.den ≠ 0 := x.den_nz
  have a1 := Nat.log2_self_le hn
  have a2 := Nat.lt_log2_self (n := x.num.natAbs)
  have b1 := Nat.log2_self_le hd
  have b2 := Nat.lt_log2_self (n := x.den)
  set a := Nat.log2 x.num.natAbs with ha
  set b := Nat.log2 x.den with hb
  have hxe : x = (x.num.natAbs : ℚ) / (x.den : ℚ) := by
    have h2 : ((x.num.natAbs : Nat) : ℚ) = (x.num : ℚ) := by
      rw [Nat.cast_natAbs, abs_of_pos hnum]
    rw [h2]
    exact (Rat.num_div_den x).symm
  have hdpos : (0 : ℚ) < x.den := by exact_mod_cast Nat.pos_of_ne_zero hd
  have c1 : ((2 : ℚ) ^ a) ≤ (x.num.natAbs : ℚ) := by exact_mod_cast a1
  have c2 : (x.num.natAbs : ℚ) < 2 ^ (a + 1) := by exact_mod_cast a2
  have c3 : ((2 : ℚ) ^ b) ≤ (x.den : ℚ) := by exact_mod_cast b1
  have c4 : (x.den : ℚ) < 2 ^ (b + 1) := by exact_mod_cast b2
  have hup : x < 2 ^ ((a : Int) - b + 1) := by
    rw [hxe, div_lt_iff₀ hdpos]
    have e : (2 : ℚ) ^ ((a : Int) - b + 1) * 2 ^ b = 2 ^ (a + 1) := by
      rw [← zpow_natCast (2 : ℚ) b, ← zpow_add₀ (by norm_num), ← zpow_natCast (2 : ℚ) (a + 1)]
      congr 1
      push_cast
      ring
    calc (x.num.natAbs : ℚ) < 2 ^ (a + 1) := c2
      _ = (2 : ℚ) ^ ((a : Int) - b + 1) * 2 ^ b := e.symm
      _ ≤ _ := mul_le_mul_of_nonneg_left c3 (zpow_pos (by norm_num) _).le
  have hlo : (2 : ℚ) ^ ((a : Int) - b - 1) ≤ x := by
    have e : (2 : ℚ) ^ ((a : Int) - b - 1) * 2 ^ (b + 1) = 2 ^ a := by
      rw [← zpow_natCast (2 : ℚ) (b + 1), ← zpow_add₀ (by norm_num), ← zpow_natCast (2 : ℚ) a]
      congr 1
      push_cast
      ring
    have : (2 : ℚ) ^ ((a : Int) - b - 1) ≤ (x.num.natAbs : ℚ) / (x.den : ℚ) := by
      rw [le_div_iff₀ hdpos]
      calc (2 : ℚ) ^ ((a : Int) - b - 1) * x.den ≤ (2 : ℚ) ^ ((a : Int) - b - 1) * 2 ^ (b + 1) :=
            mul_le_mul_of_nonneg_left c4.le (zpow_pos (by norm_num) _).le
        _ = 2 ^ a := e
        _ ≤ _ := c1
    rw [hxe]
    exact this
  unfold exponent
  simp only [← ha, ← hb]
  split
  · rename_i h
    exact ⟨h, hup⟩
  · rename_i h
    refine ⟨hlo, ?_⟩
    rw [sub_add_cancel]
    exact not_le.1 h

theorem nearest_spec (y : ℚ) : |(nearest y : ℚ) - y| ≤ 1 / 2 := by
  have h1 := Int.floor_le y
  have h2 := Int.lt_floor_add_one y
  unfold nearest
  simp only
  rw [abs_le]
  split
  · constructor <;> linarith
  · rename_i h3
    split
    · push_cast
      constructor <;> linarith
    · rename_i h4
      split
      · constructor <;> linarith
      · push_cast
        constructor <;> linarith

/-- Relative error of rounding to 53 bits. -/
theorem fl_spec (x : ℚ) : |fl x - x| ≤ 1 / 2 ^ 53 * |x| := by
  unfold fl
  split
  · rename_i h
    simp [h]
  · rename_i h
    have hx : 0 < |x| := abs_pos.2 h
    obtain ⟨h1, _⟩ := exponent_spec hx
    set k := exponent |x| with hk
    have hp : (0 : ℚ) < 2 ^ (k - 52) := zpow_pos (by norm_num) _
    have e1 : (nearest (x / 2 ^ (k - 52)) : ℚ) * 2 ^ (k - 52) - x
        = ((nearest (x / 2 ^ (k - 52)) : ℚ) - x / 2 ^ (k - 52)) * 2 ^ (k - 52) := by
      field_simp
    rw [e1, abs_mul, abs_of_pos hp]
    have e2 := mul_le_mul_of_nonneg_right (nearest_spec (x / 2 ^ (k - 52))) hp.le
    refine le_trans e2 ?_
    have e3 : (1 / 2 : ℚ) * 2 ^ (k - 52) = 1 / 2 ^ 53 * 2 ^ k := by
      rw [zpow_sub₀ (by norm_num)]
      norm_num
      ring
    rw [e3]
    exact mul_le_mul_of_nonneg_left h1 (by norm_num)

theorem foldl_err (l : List ℚ) (s x A : ℚ) (q : Nat) (h : Near (1 / 2 ^ 53 : ℚ) q s x A) :
    Near (1 / 2 ^ 53 : ℚ) (q + l.length) (l.foldl (fun s x => fl (s + x)) s) (x + l.sum)
      (A + absSum l) := by
  have hu : (0 : ℚ) ≤ 1 / 2 ^ 53 := by norm_num
  induction l generalizing s x A q with
  | nil => simpa [absSum] using h
  | cons a l ih =>
    have hstep : Near (1 / 2 ^ 53 : ℚ) (q + 1) (fl (s + a)) (x + a) (A + |a|) := by
      have h1 : Near (1 / 2 ^ 53 : ℚ) q (s + a) (x + a) (A + |a|) := by
        refine ⟨?_, le_trans (abs_add_le x a) (add_le_add_left h.2 _)⟩
        have e : s + a - (x + a) = s - x := by ring
        rw [e]
        refine le_trans h.1 (mul_le_mul_of_nonneg_left (by linarith [abs_nonneg a]) ?_)
        have := one_le_pow' hu q
        linarith
      refine h1.combine hu ?_
      have e := fl_spec (s + a)
      have b := h1.bound
      refine le_trans e ?_
      rw [pow_one]
      have : (1 + 1 / 2 ^ 53 : ℚ) - 1 = 1 / 2 ^ 53 := by ring
      rw [this]
      exact mul_le_mul_of_nonneg_left b hu
    have := ih (fl (s + a)) (x + a) (A + |a|) (q + 1) hstep
    simp only [List.foldl_cons, List.sum_cons, List.length_cons, absSum, List.map_cons]
    have e1 : q + (l.length + 1) = q + 1 + l.length := by ring
    rw [e1, ← add_assoc, ← add_assoc]
    exact this

theorem sum_err (l : List ℚ) : |l.foldl (fun s x => fl (s + x)) 0 - l.sum|
    ≤ ((1 + 1 / 2 ^ 53 : ℚ) ^ l.length - 1) * absSum l := by
  have := (foldl_err l 0 0 0 0 Near.zero).1
  simpa using this

/-- Double precision is an arithmetic in the sense of `Rounds`, with `u = 2^(-53)`. -/
theorem double_rounds (B : ℚ) : Rounds (1 / 2 ^ 53) B double where
  zero := rfl
  neg := fun _ => rfl
  add := fun a b _ => fl_spec (a + b)
  sub := fun a b _ => fl_spec (a - b)
  sum := fun l _ => sum_err l
  sum2 := fun l _ => sum_err l.flatten
  le := fun _ _ => rfl

end Verif.Rounding
