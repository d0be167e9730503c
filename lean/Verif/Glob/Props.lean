import Verif.Glob.Model
import Verif.Glob.Spec
import Mathlib.Tactic.Tauto

/-!
# What `glob(name + "*")` finds
-/

set_option linter.dupNamespace false

namespace Verif.Glob

open Verif.CovMain (Text)

theorem parse_lit {c : Char} (h1 : c ≠ '*') (h2 : c ≠ '?') (h3 : c ≠ '[') (r : Text) : parse (c :: r) = .lit c :: parse r := by
  rw [parse, if_neg h1, if_neg h2, if_neg h3]

theorem parse_star (r : Text) : parse ('*' :: r) = .star :: parse r := by
  rw [parse, if_pos rfl]

theorem parse_nil : parse [] = [] := by rw [parse]

theorem fits_ordinary {u : Text} (hu : Ordinary u) (p s : Text) :
    Tok.fits (parse (u ++ p)) s = true ↔ ∃ t, s = u ++ t ∧ Tok.fits (parse p) t = true := by
  induction u generalizing s with
  | nil => simp
  | cons c u ih =>
    obtain ⟨h1, h2, h3⟩ := hu
    simp only [List.mem_cons, not_or] at h1 h2 h3
    have hu : Ordinary u := ⟨h1.2, h2.2, h3.2⟩
    rw [List.cons_append, parse_lit (fun h => h1.1 h.symm) (fun h => h2.1 h.symm) (fun h => h3.1 h.symm)]
    cases s with
    | nil => simp [Tok.fits]
    | cons d s =>
      simp only [Tok.fits, Bool.and_eq_true, decide_eq_true_eq, ih hu, List.cons_append, List.cons.injEq]
      constructor
      · rintro ⟨rfl, t, rfl, ht⟩; exact ⟨t, ⟨rfl, rfl⟩, ht⟩
      · rintro ⟨t, ⟨rfl, rfl⟩, ht⟩; exact ⟨rfl, t, rfl, ht⟩

theorem fits_star (p s : Text) : Tok.fits (parse ('*' :: p)) s = true ↔ ∃ x t, s = x ++ t ∧ Tok.fits (parse p) t = true := by
  rw [parse_star]
  simp only [Tok.fits, List.any_eq_true, List.mem_tails]
  constructor
  · rintro ⟨t, ⟨x, rfl⟩, ht⟩; exact ⟨x, t, rfl, ht⟩
  · rintro ⟨x, t, rfl, ht⟩; exact ⟨t, ⟨x, rfl⟩, ht⟩

theorem fits_nil (s : Text) : Tok.fits (parse []) s = true ↔ s = [] := by
  rw [parse_nil]; simp [Tok.fits]

theorem fits_end (s : Text) : Tok.fits (parse ['*']) s = true := by
  rw [fits_star]
  exact ⟨s, [], by simp, (fits_nil []).2 rfl⟩

theorem bracket_choice {s : Text} (hs : Choice s) (p : Text) : bracket (s ++ ']' :: p) = some (s, p) := by
  obtain ⟨h1, h2, h3, h4⟩ := hs
  obtain ⟨c, r, rfl⟩ := List.exists_cons_of_ne_nil h1
  simp only [List.mem_cons, not_or] at h2 h4
  have e1 : ((c :: r ++ ']' :: p).head? = some '!') = False := by
    simp only [List.cons_append, List.head?_cons, Option.some.injEq, eq_iff_iff, iff_false]
    exact fun h => h4.1 h.symm
  have e2 : ((c :: r ++ ']' :: p).head? = some ']') = False := by
    simp only [List.cons_append, List.head?_cons, Option.some.injEq, eq_iff_iff, iff_false]
    exact fun h => h2.1 h.symm
  have hall : ∀ x ∈ c :: r, decide (x ≠ ']') = true := by
    intro x hx
    simp only [ne_eq, decide_eq_true_eq]
    rintro rfl
    rcases List.mem_cons.1 hx with h | h
    · exact h2.1 h
    · exact h2.2 h
  unfold bracket skipped
  simp only [e1, e2, if_false, List.drop_zero, List.take_zero, List.nil_append]
  rw [if_pos (by simp)]
  have t1 : (c :: r ++ ']' :: p).takeWhile (fun x => decide (x ≠ ']')) = c :: r := by
    rw [List.takeWhile_append_of_pos hall]
    simp
  have t2 : (c :: r ++ ']' :: p).dropWhile (fun x => decide (x ≠ ']')) = ']' :: p := by
    rw [List.dropWhile_append_of_pos hall]
    simp
  rw [t1, t2]
  simp

theorem setItems_choice (s : Text) (h : '-' ∉ s) : setItems s = s.map fun c => (c, c) := by
  induction s with
  | nil => rfl
  | cons a s ih =>
    simp only [List.mem_cons, not_or] at h
    match s, ih h.2, h.2 with
    | [], _, _ => rfl
    | [b], _, _ => rfl
    | b :: c :: r, ih, h2 =>
      simp only [List.mem_cons, not_or] at h2
      rw [setItems, if_neg (fun hh => h2.1 hh.symm), ih]
      rfl

theorem fits_choice {s : Text} (hs : Choice s) (p t : Text) :
    Tok.fits (parse ('[' :: (s ++ ']' :: p))) t = true ↔ ∃ d ∈ s, ∃ r, t = d :: r ∧ Tok.fits (parse p) r = true := by
  have hb := bracket_choice hs p
  have hp : parse ('[' :: (s ++ ']' :: p)) = setTok s :: parse p := by
    rw [parse, if_neg (by decide), if_neg (by decide), if_pos rfl]
    split
    · rename_i h
      rw [hb] at h
      cases h
    · rename_i stuff rest h
      rw [hb] at h
      cases h
      rfl
  have hset : setTok s = .set false (s.map fun c => (c, c)) := by
    unfold setTok
    rw [if_neg, setItems_choice _ hs.2.2.1]
    intro h
    exact hs.2.2.2 (List.mem_of_mem_head? h)
  rw [hp, hset]
  have hin : ∀ d, inItems (s.map fun c => (c, c)) d = true ↔ d ∈ s := by
    intro d
    unfold inItems
    simp only [List.any_map, List.any_eq_true, Function.comp, decide_eq_true_eq]
    constructor
    · rintro ⟨x, hx, h1, h2⟩
      rwa [Char.le_antisymm h2 h1]
    · exact fun h => ⟨d, h, Char.le_refl d, Char.le_refl d⟩
  cases t with
  | nil => simp [Tok.fits]
  | cons d r =>
    simp only [Tok.fits, Bool.and_eq_true, bne_iff_ne, ne_eq, Bool.not_eq_false, hin, List.cons.injEq]
    constructor
    · rintro ⟨h1, h2⟩; exact ⟨d, h1, r, ⟨rfl, rfl⟩, h2⟩
    · rintro ⟨x, hx, y, ⟨rfl, rfl⟩, h2⟩; exact ⟨hx, h2⟩

/-! ## What a search for names that begin with a text finds -/

theorem magic_star (u : Text) : hasMagic (u ++ ['*']) = true := by
  simp [hasMagic]

theorem ordinary_part {p : Text} (h : Ordinary p) (n : Text) : partFits p n = true ↔ n = p := by
  unfold partFits
  have : hasMagic p = false := by
    unfold hasMagic
    rw [List.any_eq_false]
    intro c hc
    simp only [decide_eq_true_eq]
    rintro (rfl | rfl | rfl)
    · exact h.1 hc
    · exact h.2.1 hc
    · exact h.2.2 hc
  rw [this]
  simp [eq_comm]

theorem ordinary_paths {dir : List Text} (h : ∀ p ∈ dir, Ordinary p) (u : Text) (f : Path) :
    pathFits (dir ++ [u]) f = true ↔ ∃ n, f = dir ++ [n] ∧ partFits u n = true := by
  induction dir generalizing f with
  | nil =>
    match f with
    | [] => simp [pathFits]
    | [n] => simp [pathFits]
    | n :: m :: r => simp [pathFits]
  | cons p dir ih =>
    have hp := h p (by simp)
    have hr := ih (fun q hq => h q (by simp [hq]))
    cases f with
    | nil => simp [pathFits]
    | cons n f =>
      simp only [List.cons_append, pathFits, Bool.and_eq_true, ordinary_part hp, hr, List.cons.injEq]
      constructor
      · rintro ⟨rfl, m, rfl, hm⟩; exact ⟨m, ⟨rfl, rfl⟩, hm⟩
      · rintro ⟨m, ⟨rfl, rfl⟩, hm⟩; exact ⟨rfl, m, rfl, hm⟩

/-- **C144.** With ordinary names of the directories and of the file, a search for `name*` finds
exactly the files in that directory whose names begin with `name`. -/
theorem C144_found_partial {dir : List Text} (hd : ∀ p ∈ dir, Ordinary p) {u : Text} (hu : Ordinary u) (hne : u ≠ []) (f : Path) :
    pathFits (dir ++ [u ++ ['*']]) f = true ↔ ∃ rest, f = dir ++ [u ++ rest] := by
  rw [ordinary_paths hd]
  have key : ∀ n, partFits (u ++ ['*']) n = true ↔ ∃ t, n = u ++ t := by
    intro n
    unfold partFits fnmatch
    rw [if_pos (magic_star u), Bool.and_eq_true, fits_ordinary hu]
    constructor
    · rintro ⟨-, t, rfl, -⟩; exact ⟨t, rfl⟩
    · rintro ⟨t, rfl⟩
      refine ⟨?_, t, rfl, fits_end t⟩
      obtain ⟨c, r, rfl⟩ := List.exists_cons_of_ne_nil hne
      by_cases hc : c = '.'
      · simp [hc]
      · simp [hc]
  constructor
  · rintro ⟨n, rfl, hn⟩
    obtain ⟨t, rfl⟩ := (key n).1 hn
    exact ⟨t, rfl⟩
  · rintro ⟨t, rfl⟩
    exact ⟨_, rfl, (key _).2 ⟨t, rfl⟩⟩

/-- **C144, violated for names with brackets.** With a name like `run[12]`, the search finds the files whose
names have one of the characters in the place of the brackets. -/
theorem C144_brackets {dir : List Text} (hd : ∀ p ∈ dir, Ordinary p) {u s v : Text} (hu : Ordinary u) (hs : Choice s)
    (hv : Ordinary v) (hdot : u.head? ≠ some '.') (hne : u ≠ []) (f : Path) :
    pathFits (dir ++ [(u ++ '[' :: (s ++ ']' :: v)) ++ ['*']]) f = true ↔ ∃ d ∈ s, ∃ rest, f = dir ++ [u ++ d :: (v ++ rest)] := by
  rw [ordinary_paths hd]
  have key : ∀ n, partFits ((u ++ '[' :: (s ++ ']' :: v)) ++ ['*']) n = true ↔ ∃ d ∈ s, ∃ t, n = u ++ d :: (v ++ t) := by
    intro n
    unfold partFits fnmatch
    rw [if_pos (magic_star _), Bool.and_eq_true]
    have e : (u ++ '[' :: (s ++ ']' :: v)) ++ ['*'] = u ++ '[' :: (s ++ ']' :: (v ++ ['*'])) := by simp
    rw [e, fits_ordinary hu]
    simp only [fits_choice hs, fits_ordinary hv]
    constructor
    · rintro ⟨-, t, rfl, d, hds, r, rfl, t, rfl, -⟩
      exact ⟨d, hds, t, rfl⟩
    · rintro ⟨d, hds, t, rfl⟩
      refine ⟨?_, _, rfl, d, hds, _, rfl, t, rfl, fits_end t⟩
      obtain ⟨c, r, rfl⟩ := List.exists_cons_of_ne_nil hne
      have : c ≠ '.' := fun h => hdot (by simp [h])
      simp [this]
  constructor
  · rintro ⟨n, rfl, hn⟩
    obtain ⟨d, hds, t, rfl⟩ := (key n).1 hn
    exact ⟨d, hds, t, rfl⟩
  · rintro ⟨d, hds, t, rfl⟩
    exact ⟨_, rfl, (key _).2 ⟨d, hds, t, rfl⟩⟩

/-- **C144, violated for names with brackets**: the files of `run[12]` themselves are never found. -/
theorem C144_brackets_violated {dir : List Text} (hd : ∀ p ∈ dir, Ordinary p) {u s v : Text} (hu : Ordinary u) (hs : Choice s)
    (hin : '[' ∉ s) (hv : Ordinary v) (hdot : u.head? ≠ some '.') (hne : u ≠ []) (rest : Text) :
    pathFits (dir ++ [(u ++ '[' :: (s ++ ']' :: v)) ++ ['*']]) (dir ++ [(u ++ '[' :: (s ++ ']' :: v)) ++ rest]) = false := by
  rw [Bool.eq_false_iff]
  intro h
  obtain ⟨d, hds, t, ht⟩ := (C144_brackets hd hu hs hv hdot hne _).1 h
  have h1 := List.append_cancel_left ht
  simp only [List.cons.injEq, and_true, List.append_assoc, List.cons_append] at h1
  have h2 := List.append_cancel_left h1
  rw [List.cons.injEq] at h2
  exact hin (h2.1 ▸ hds)

/-- **C144, violated for names with a star**: with the name `a*b` the search finds the files of every
name that begins with `a` and ends with `b`. -/
theorem C144_star_violated {dir : List Text} (hd : ∀ p ∈ dir, Ordinary p) {u v : Text} (hu : Ordinary u) (hv : Ordinary v)
    (hdot : u.head? ≠ some '.') (hne : u ≠ []) (x rest : Text) :
    pathFits (dir ++ [(u ++ '*' :: v) ++ ['*']]) (dir ++ [u ++ (x ++ (v ++ rest))]) = true := by
  rw [ordinary_paths hd]
  refine ⟨_, rfl, ?_⟩
  unfold partFits fnmatch
  rw [if_pos (magic_star _), Bool.and_eq_true]
  have e : (u ++ '*' :: v) ++ ['*'] = u ++ '*' :: (v ++ ['*']) := by simp
  rw [e, fits_ordinary hu]
  simp only [fits_star, fits_ordinary hv]
  refine ⟨?_, _, rfl, x, _, rfl, rest, rfl, ?_⟩
  · obtain ⟨c, r, rfl⟩ := List.exists_cons_of_ne_nil hne
    have : c ≠ '.' := fun h => hdot (by simp [h])
    simp [this]
  · obtain ⟨y, t, e1, e2⟩ := (fits_star [] rest).1 (fits_end rest)
    exact ⟨y, t, e1, e2⟩

end Verif.Glob
