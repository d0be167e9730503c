import Verif.CovMain.Names
import Mathlib.Data.Nat.Digits.Lemmas
import Mathlib.Tactic.Ring
import Mathlib.Tactic.NormNum
import Mathlib.Tactic.Linarith

/-!
# Names of files: lemmas
-/

namespace Verif.CovMain

open Verif.Laps (What)

theorem isDigit_ofNat {d : Nat} (h : d < 10) : isDigit (Char.ofNat (48 + d)) = true ∧ (Char.ofNat (48 + d)).toNat - 48 = d := by
  have : ∀ d < 10, isDigit (Char.ofNat (48 + d)) = true ∧ (Char.ofNat (48 + d)).toNat - 48 = d := by decide
  exact this d h

theorem number_from (s : Text) : ∀ a : Nat, s.foldl (fun a c => 10 * a + (c.toNat - 48)) a = a * 10 ^ s.length + number s := by
  induction s with
  | nil => intro a; simp [number]
  | cons c s ih =>
    intro a
    unfold number
    rw [List.foldl_cons, List.foldl_cons, ih, ih]
    rw [List.length_cons]
    ring

theorem number_append (a b : Text) : number (a ++ b) = number a * 10 ^ b.length + number b := by
  unfold number
  rw [List.foldl_append, number_from]
  rfl

theorem number_zeros (k : Nat) : number (List.replicate k '0') = 0 := by
  induction k with
  | zero => rfl
  | succ k ih =>
    rw [List.replicate_succ]
    unfold number
    rw [List.foldl_cons, number_from, ih]
    simp

theorem number_digits (l : List Nat) (h : ∀ d ∈ l, d < 10) :
    number ((l.map fun d => Char.ofNat (48 + d)).reverse) = Nat.ofDigits 10 l := by
  induction l with
  | nil => rfl
  | cons d l ih =>
    rw [List.map_cons, List.reverse_cons, number_append, ih fun x hx => h x (by simp [hx]), Nat.ofDigits_cons]
    have := (isDigit_ofNat (h d (by simp))).2
    unfold number
    simp [this]
    ring

theorem padded_number (w n : Nat) : number (padded w n) = n := by
  unfold padded
  rw [number_append, number_zeros, number_digits _ fun d hd => Nat.digits_lt_base (by norm_num) hd, Nat.ofDigits_digits]
  simp

theorem padded_all (w n : Nat) : ∀ c ∈ padded w n, isDigit c = true := by
  intro c hc
  unfold padded at hc
  rw [List.mem_append] at hc
  rcases hc with hc | hc
  · rw [List.eq_of_mem_replicate hc]
    decide
  · rw [List.mem_reverse, List.mem_map] at hc
    obtain ⟨d, hd, rfl⟩ := hc
    exact (isDigit_ofNat (Nat.digits_lt_base (by norm_num) hd)).1

theorem padded_length (w n : Nat) : w ≤ (padded w n).length := by
  unfold padded
  simp
  omega

theorem padded_length_eq {w n : Nat} (h : n < 10 ^ w) : (padded w n).length = w := by
  have := (Nat.digits_length_le_iff (b := 10) (by norm_num) (k := w) n).2 h
  unfold padded
  simp
  omega

theorem digit_not_blank {c : Char} (h : isDigit c = true) : isBlank c = false := by
  unfold isDigit at h
  unfold isBlank
  have h1 : 48 ≤ c.toNat := by
    have := (Bool.and_eq_true _ _).mp h
    simpa using this.1
  simp only [Bool.or_eq_false_iff, beq_eq_false_iff_ne, ne_eq]
  refine ⟨⟨⟨⟨⟨?_, ?_⟩, ?_⟩, ?_⟩, ?_⟩, ?_⟩ <;> (rintro rfl; revert h1; decide)

/-- Nothing to strip. -/
theorem strip_eq {s : Text} (h1 : ∀ c, s.head? = some c → isBlank c = false)
    (h2 : ∀ c, s.getLast? = some c → isBlank c = false) : strip s = s := by
  have aux : ∀ t : Text, (∀ c, t.head? = some c → isBlank c = false) → t.dropWhile isBlank = t := by
    intro t ht
    cases t with
    | nil => rfl
    | cons c t => rw [List.dropWhile_cons, ht c rfl]; rfl
  unfold strip
  rw [aux s h1, aux s.reverse (by rw [List.head?_reverse]; exact h2), List.reverse_reverse]

theorem sign_digit {s : Text} (h : ∀ c, s.head? = some c → isDigit c = true) : sign s = (false, s) := by
  cases s with
  | nil => rfl
  | cons c s =>
    have := h c rfl
    unfold sign
    split
    · rename_i heq
      obtain ⟨rfl, -⟩ := List.cons.inj heq
      exact absurd this (by decide)
    · rename_i heq
      obtain ⟨rfl, -⟩ := List.cons.inj heq
      exact absurd this (by decide)
    · rfl

theorem pyInt_padded {w : Nat} (hw : 0 < w) (n : Nat) : pyInt (padded w n) = some (n : Int) := by
  have hall := padded_all w n
  have hhead : ∀ c, (padded w n).head? = some c → isDigit c = true := fun c hc => hall c (List.mem_of_head? hc)
  unfold pyInt
  rw [strip_eq (fun c hc => digit_not_blank (hhead c hc)) (fun c hc => digit_not_blank (hall c (List.mem_of_getLast? hc))),
    sign_digit hhead]
  have hne : (padded w n).isEmpty = false := by
    have := padded_length w n
    cases hp : padded w n with
    | nil => rw [hp] at this; simp at this; omega
    | cons => rfl
  have : (padded w n).all isDigit = true := List.all_eq_true.2 hall
  dsimp only
  rw [hne, this, padded_number]
  rfl

theorem takeWhile_stop {a : Text} (ha : ∀ c ∈ a, isDigit c = true) {x : Char} (hx : isDigit x = false) (b : Text) :
    (a ++ x :: b).takeWhile isDigit = a ∧ (a ++ x :: b).dropWhile isDigit = x :: b := by
  induction a with
  | nil => simp [List.takeWhile_cons, List.dropWhile_cons, hx]
  | cons c a ih =>
    have hc := ha c (by simp)
    obtain ⟨h1, h2⟩ := ih fun x hx => ha x (by simp [hx])
    rw [List.cons_append, List.takeWhile_cons, List.dropWhile_cons, hc]
    simp [h1, h2]

theorem lower_digit {c : Char} (h : isDigit c = true) : lower c = c := by
  unfold isDigit at h
  have := (Bool.and_eq_true _ _).mp h
  have h2 : c.toNat ≤ 57 := by simpa using this.2
  unfold lower
  rw [if_neg]
  omega

theorem padded_ne_nil {w : Nat} (hw : 0 < w) (n : Nat) : padded w n ≠ [] := by
  intro h
  have := padded_length w n
  rw [h] at this
  simp at this
  omega

theorem pyFloat_text (r : Four) : pyFloat r.text = some (.num r.value) := by
  obtain ⟨a, ha⟩ : ∃ a, a = padded 1 (r.m / 1000) := ⟨_, rfl⟩
  obtain ⟨b, hb⟩ : ∃ b, b = padded 3 (r.m % 1000) := ⟨_, rfl⟩
  obtain ⟨x, hx⟩ : ∃ x, x = padded 2 r.e.natAbs := ⟨_, rfl⟩
  have htext : r.text = a ++ '.' :: (b ++ 'e' :: (if r.e < 0 then '-' else '+') :: x) := by
    unfold Four.text
    rw [← ha, ← hb, ← hx]
    simp
  have haall : ∀ c ∈ a, isDigit c = true := ha ▸ padded_all _ _
  have hball : ∀ c ∈ b, isDigit c = true := hb ▸ padded_all _ _
  have hxall : ∀ c ∈ x, isDigit c = true := hx ▸ padded_all _ _
  have hane : a ≠ [] := ha ▸ padded_ne_nil (by norm_num) _
  have hxne : x ≠ [] := hx ▸ padded_ne_nil (by norm_num) _
  have hblen : b.length = 3 := hb ▸ padded_length_eq (Nat.mod_lt _ (by norm_num))
  obtain ⟨c0, a', hcons⟩ := List.exists_cons_of_ne_nil hane
  have hc0 : isDigit c0 = true := haall c0 (by rw [hcons]; simp)
  have hhead : ∀ c, r.text.head? = some c → isDigit c = true := by
    intro c hc
    rw [htext, hcons] at hc
    simp at hc
    exact hc ▸ hc0
  have hlast : ∀ c, r.text.getLast? = some c → isDigit c = true := by
    intro c hc
    have : r.text = (a ++ '.' :: (b ++ 'e' :: [if r.e < 0 then '-' else '+'])) ++ x := by rw [htext]; simp
    rw [this, List.getLast?_append_of_ne_nil _ hxne] at hc
    exact hxall c (List.mem_of_getLast? hc)
  unfold pyFloat
  rw [strip_eq (fun c hc => digit_not_blank (hhead c hc)) (fun c hc => digit_not_blank (hlast c hc)), sign_digit hhead]
  dsimp only
  have hnot : ¬ (r.text.map lower = "inf".toList ∨ r.text.map lower = "infinity".toList ∨ r.text.map lower = "nan".toList) := by
    rw [htext, hcons, List.cons_append, List.map_cons, lower_digit hc0]
    rintro (h | h | h)
    all_goals
      have := (List.cons.inj h).1
      rw [this] at hc0
      exact absurd hc0 (by decide)
  rw [if_neg hnot, htext]
  obtain ⟨h1, h2⟩ := takeWhile_stop haall (x := '.') (by decide) (b ++ 'e' :: (if r.e < 0 then '-' else '+') :: x)
  obtain ⟨h3, h4⟩ := takeWhile_stop hball (x := 'e') (by decide) ((if r.e < 0 then '-' else '+') :: x)
  rw [h1, h2]
  simp only [h3, h4]
  have hae : a.isEmpty = false := by rw [hcons]; rfl
  have hxe : x.isEmpty = false := by
    obtain ⟨c, t, h⟩ := List.exists_cons_of_ne_nil hxne
    rw [h]
    rfl
  have hxa : x.all isDigit = true := List.all_eq_true.2 hxall
  rw [hae]
  have hm : number (a ++ b) = r.m := by
    rw [number_append, hblen, ha, hb, padded_number, padded_number]
    omega
  have hsg : sign ((if r.e < 0 then '-' else '+') :: x) = (decide (r.e < 0), x) := by
    by_cases he : r.e < 0
    · rw [if_pos he, decide_eq_true he]; rfl
    · rw [if_neg he, decide_eq_false he]; rfl
  rw [hsg, hm, hblen]
  have hexp : (if decide (r.e < 0) = true then -(number x : Int) else (number x : Int)) = r.e := by
    rw [hx, padded_number]
    by_cases he : r.e < 0
    · rw [if_pos (by simpa using he)]; omega
    · rw [if_neg (by simpa using he)]; omega
  simp only [hxe, hxa, Bool.false_and, Bool.false_eq_true, if_false, true_or, if_true, Bool.not_true, Bool.or_self]
  have hv : (1 : ℚ) * (r.m : ℚ) / 10 ^ 3 * (10 : ℚ) ^ r.e = r.value := by
    unfold Four.value
    rw [zpow_sub₀ (by norm_num : (10 : ℚ) ≠ 0)]
    norm_num
    ring
  congr 2
  rw [← hv]
  congr 2

theorem split_ne_nil (s : Text) : split s ≠ [] := by
  cases s with
  | nil => simp [split]
  | cons c s =>
    unfold split
    split
    · simp
    · split <;> simp

theorem split_append (a b : Text) : split (a ++ '_' :: b) = split a ++ split b := by
  induction a with
  | nil => simp [split]
  | cons c a ih =>
    rw [List.cons_append]
    rw [split.eq_2, split.eq_2, ih]
    split
    · rfl
    · obtain ⟨p, ps, h⟩ := List.exists_cons_of_ne_nil (split_ne_nil a)
      rw [h]
      rfl

theorem split_one {s : Text} (h : '_' ∉ s) : split s = [s] := by
  induction s with
  | nil => rfl
  | cons c s ih =>
    unfold split
    rw [if_neg (fun hc => h (by simp [hc])), ih fun hs => h (by simp [hs])]

theorem split_joined (p : Text) (ps : List Text) (h : ∀ q ∈ p :: ps, '_' ∉ q) :
    split (List.intercalate ['_'] (p :: ps)) = p :: ps := by
  induction ps generalizing p with
  | nil => simpa using split_one (h p (by simp))
  | cons q ps ih =>
    rw [List.intercalate_cons_cons]
    rw [List.append_assoc, List.singleton_append, split_append, split_one (h p (by simp)), ih q fun x hx => h x (by simp at hx ⊢; tauto)]
    rfl

theorem stem_dot (x y : Text) (hy : '.' ∉ y) (hx : x.any (· ≠ '.') = true) : stem (x ++ '.' :: y) = x := by
  have h : (((x ++ '.' :: y).reverse.dropWhile (· ≠ '.')).drop 1).reverse = x := by
    rw [List.reverse_append, List.reverse_cons, List.append_assoc, List.dropWhile_append_of_pos]
    · simp
    · intro c hc
      rw [List.mem_reverse] at hc
      have : c ≠ '.' := fun h => hy (h ▸ hc)
      simpa using this
  unfold stem
  rw [h]
  dsimp only
  rw [if_pos hx]

theorem hasInt_of_no_i {s : Text} (h : 'i' ∉ s) : hasInt s = false := by
  unfold hasInt
  rw [List.any_eq_false]
  intro t ht hc
  simp only [Bool.and_eq_true, decide_eq_true_eq] at hc
  have h1 := hc.1.1
  have ht' : t <:+ s := (List.mem_tails _ _).1 ht
  have : 'i' ∈ t := by
    have : 'i' ∈ t.take 3 := by rw [h1]; decide
    exact List.mem_of_mem_take this
  exact h (ht'.subset this)

theorem hasInt_padded (k : Nat) : hasInt ("int".toList ++ padded 6 k) = true := by
  have h6 := padded_length 6 k
  have hall := padded_all 6 k
  unfold hasInt
  rw [List.any_eq_true]
  refine ⟨"int".toList ++ padded 6 k, (List.mem_tails _ _).2 (List.suffix_refl _), ?_⟩
  have h3 : ("int".toList ++ padded 6 k).take 3 = "int".toList := by
    rw [show (3 : Nat) = "int".toList.length from rfl, List.take_left]
  have h4 : ("int".toList ++ padded 6 k).drop 3 = padded 6 k := by
    rw [show (3 : Nat) = "int".toList.length from rfl, List.drop_left]
  rw [h3, h4]
  simp only [Bool.and_eq_true, decide_eq_true_eq, List.length_take, List.all_eq_true, true_and]
  exact ⟨by omega, fun c hc => hall c (List.mem_of_mem_take hc)⟩

end Verif.CovMain
