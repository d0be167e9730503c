import Verif.FloatTrans.Bounds
import Verif.Rounding.Double

/-!
# IEEE double precision with underflow and overflow
-/

set_option linter.unusedSectionVars false

namespace Verif.FloatTrans

open Verif.Rounding (fl fl_spec nearest nearest_spec Near)

/-- The smallest normal number. -/
def tiny : ℚ := 1 / 2 ^ 1022

/-- A bound below which nothing overflows. -/
def huge : ℚ := 2 ^ 1023

/-- Unit roundoff. -/
def unit : ℚ := 1 / 2 ^ 53

/-- Rounding to double precision, to nearest: numbers below `2^(-1022)` are rounded to
multiples of `2^(-1074)` (gradual underflow), and numbers above `2^1023` to anything
(`ovf`). -/
def rnd (ovf : ℚ → ℚ) (x : ℚ) : ℚ :=
  if huge < |x| then ovf x
  else if |x| < tiny then nearest (x * 2 ^ 1074) / 2 ^ 1074
  else fl x

/-- Arithmetic in double precision.  Sums of numpy are computed from left to right. -/
def ieee (ovf : ℚ → ℚ) : Ops ℚ where
  zero := 0
  one := 1
  add := fun a b => rnd ovf (a + b)
  mul := fun a b => rnd ovf (a * b)
  div := fun a b => rnd ovf (a / b)
  isZero := fun a => decide (a = 0)
  sum := fun l => l.foldl (fun a b => rnd ovf (a + b)) 0

theorem unit_nonneg : 0 ≤ unit := by unfold unit; positivity

theorem tiny_nonneg : 0 ≤ tiny := by unfold tiny; positivity

theorem rnd_spec (ovf : ℚ → ℚ) (x : ℚ) (h : |x| ≤ huge) :
    |rnd ovf x - x| ≤ unit * max |x| tiny := by
  unfold rnd
  rw [if_neg (not_lt.2 h)]
  split
  · rename_i hs
    have h1 := nearest_spec (x * 2 ^ 1074)
    have h2 : (0 : ℚ) < 2 ^ 1074 := by positivity
    have e : (nearest (x * 2 ^ 1074) : ℚ) / 2 ^ 1074 - x
        = ((nearest (x * 2 ^ 1074) : ℚ) - x * 2 ^ 1074) / 2 ^ 1074 := by
      field_simp
    rw [e, abs_div, abs_of_pos h2, div_le_iff₀ h2, max_eq_right hs.le, unit, tiny]
    refine le_trans h1 ?_
    have e2 : (2 : ℚ) ^ 1074 = 2 ^ 52 * 2 ^ 1022 := by rw [← pow_add]
    rw [e2]
    have h3 : (2 : ℚ) ^ 1022 ≠ 0 := by positivity
    have e3 : (1 : ℚ) / 2 ^ 53 * (1 / 2 ^ 1022) * (2 ^ 52 * 2 ^ 1022) = 1 / 2 ^ 53 * 2 ^ 52 := by
      field_simp
    rw [e3]
    norm_num
  · exact le_trans (fl_spec x) (mul_le_mul_of_nonneg_left (le_max_left _ _) unit_nonneg)

theorem rnd_nonneg (ovf : ℚ → ℚ) (x : ℚ) (h0 : 0 ≤ x) (h : x ≤ huge) : 0 ≤ rnd ovf x := by
  unfold rnd
  rw [abs_of_nonneg h0, if_neg (not_lt.2 h)]
  split
  · have h1 : (0 : ℚ) ≤ x * 2 ^ 1074 := by positivity
    have h2 : 0 ≤ nearest (x * 2 ^ 1074) := by
      have h3 : 0 ≤ ⌊x * 2 ^ 1074⌋ := Int.floor_nonneg.2 h1
      unfold nearest
      simp only
      split
      · exact h3
      · split
        · omega
        · split
          · exact h3
          · omega
    have : (0 : ℚ) ≤ nearest (x * 2 ^ 1074) := by exact_mod_cast h2
    positivity
  · have h1 := (abs_le.1 (fl_spec x)).1
    rw [abs_of_nonneg h0] at h1
    have : (0 : ℚ) ≤ x * (1 - 1 / 2 ^ 53) := mul_nonneg h0 (by norm_num)
    linarith

attribute [local irreducible] rnd tiny huge unit

/-- Double precision satisfies the assumptions, with `u = 2^(-53)`, underflow below
`2^(-1022)` and no overflow up to `2^1023`. -/
theorem ieee_rounds (ovf : ℚ → ℚ) : Rounds unit tiny huge (ieee ovf) where
  zero := rfl
  one := rfl
  isZero := fun _ => rfl
  add := fun a b h => rnd_spec ovf (a + b) h
  mul := fun a b h => rnd_spec ovf (a * b) h
  div := fun a b _ h => rnd_spec ovf (a / b) h
  add_nonneg := fun a b ha hb h => rnd_nonneg ovf _ (add_nonneg ha hb) h
  mul_nonneg := fun a b ha hb h => rnd_nonneg ovf _ (mul_nonneg ha hb) h
  div_nonneg := fun a b ha hb h => rnd_nonneg ovf _ (div_nonneg ha hb.le) h
  sum := fun l hl h => (foldl_near (add := fun a b => rnd ovf (a + b)) (fun a b h => rnd_spec ovf (a + b) h)
    (fun a b ha hb h => rnd_nonneg ovf _ (add_nonneg ha hb) h) unit_nonneg tiny_nonneg l hl h).2.1

end Verif.FloatTrans
