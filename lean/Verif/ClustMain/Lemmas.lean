import Verif.ClustMain.Spec
import Verif.CovMain.ScanLemmas

/-! # Texts inside texts -/

namespace Verif.ClustMain

open Verif.CovMain
open Verif.Scripts (Kind)

theorem has_iff (sub s : Text) : has sub s = true ↔ sub <:+: s := by
  unfold has
  rw [List.any_eq_true]
  constructor
  · rintro ⟨t, ht, h⟩
    exact ((List.isPrefixOf_iff_prefix.1 h).isInfix).trans ((List.mem_tails _ _).1 ht).isInfix
  · rintro ⟨a, b, rfl⟩
    exact ⟨sub ++ b, (List.mem_tails _ _).2 ⟨a, by simp⟩, List.isPrefixOf_iff_prefix.2 (List.prefix_append _ _)⟩

/-- Two given characters next to each other. -/
def pair (a b : Char) : Text → Bool
  | [] => false
  | [_] => false
  | x :: y :: r => (x == a && y == b) || pair a b (y :: r)

theorem pair_append {a b : Char} {x y : Text} (hx : pair a b x = false) (hl : x.getLast? ≠ some a)
    (hy : pair a b y = false) : pair a b (x ++ y) = false := by
  induction x with
  | nil => exact hy
  | cons c x ih =>
    cases x with
    | nil =>
      cases y with
      | nil => rfl
      | cons d y =>
        have hc : c ≠ a := by simpa using hl
        simp [pair, hc, hy]
    | cons d x =>
      simp only [pair, Bool.or_eq_false_iff] at hx
      have := ih hx.2 (by simpa using hl)
      simp only [List.cons_append] at this ⊢
      simp only [pair, Bool.or_eq_false_iff]
      exact ⟨hx.1, this⟩

theorem pair_none {a b : Char} {x : Text} (h : a ∉ x) : pair a b x = false ∧ x.getLast? ≠ some a := by
  constructor
  · induction x with
    | nil => rfl
    | cons c x ih =>
      cases x with
      | nil => rfl
      | cons d x =>
        simp only [List.mem_cons, not_or] at h
        have := ih (by simp [h.2])
        have hc : c ≠ a := fun e => h.1 e.symm
        simp [pair, hc, this]
  · intro e
    exact h (List.mem_of_getLast? e)

theorem pair_skip {a b : Char} {x y : Text} (h : a ∉ x) (hy : pair a b y = false) : pair a b (x ++ y) = false :=
  pair_append (pair_none h).1 (pair_none (b := b) h).2 hy

theorem pair_of_infix {a b : Char} {r s : Text} (h : (a :: b :: r) <:+: s) : pair a b s = true := by
  obtain ⟨p, q, rfl⟩ := h
  induction p with
  | nil => simp [pair]
  | cons c p ih =>
    cases hp : p ++ a :: b :: r ++ q with
    | nil => simp at hp
    | cons d t =>
      rw [hp] at ih
      simp only [List.cons_append, hp, pair, ih, Bool.or_true]

/-- A text inside a text that goes on with an underscore. -/
theorem infix_cross {sub a b : Text} (h : sub <:+: a ++ '_' :: b) :
    sub <:+: a ∨ sub <:+: '_' :: b ∨ ∃ p q, sub = p ++ '_' :: q ∧ q <+: b := by
  obtain ⟨x, y, h⟩ := h
  rw [List.append_assoc, List.append_eq_append_iff] at h
  rcases h with ⟨t, rfl, h⟩ | ⟨t, rfl, h⟩
  · -- `a` goes on after `x`
    rw [List.append_eq_append_iff] at h
    rcases h with ⟨u, rfl, h⟩ | ⟨u, rfl, h⟩
    · exact .inl ⟨x, u, by simp⟩
    · cases u with
      | nil => exact .inl ⟨x, [], by simp⟩
      | cons c u =>
        simp only [List.cons_append, List.cons.injEq] at h
        obtain ⟨rfl, h⟩ := h
        exact .inr (.inr ⟨t, u, rfl, ⟨y, h.symm⟩⟩)
  · refine .inr (.inl ⟨t, y, ?_⟩)
    rw [h]
    simp

/-- The characters of a number with four significant digits. -/
theorem text_chars (r : Four) {c : Char} (h : c ∈ r.text) : isDigit c = true ∨ c = '.' ∨ c = 'e' ∨ c = '+' ∨ c = '-' := by
  unfold Four.text at h
  simp only [List.mem_append, List.mem_cons] at h
  rcases h with (h | h | h) | h | h | h
  · exact .inl (padded_all _ _ _ h)
  · exact .inr (.inl h)
  · exact .inl (padded_all _ _ _ h)
  · exact .inr (.inr (.inl h))
  · split at h
    · exact .inr (.inr (.inr (.inr h)))
    · exact .inr (.inr (.inr (.inl h)))
  · exact .inl (padded_all _ _ _ h)

theorem not_text (r : Four) {c : Char} (h : isDigit c = false) (h1 : c ≠ '.') (h2 : c ≠ 'e') (h3 : c ≠ '+')
    (h4 : c ≠ '-') : c ∉ r.text := by
  intro hc
  rcases text_chars r hc with e | e | e | e | e
  · rw [h] at e; simp at e
  · exact h1 e
  · exact h2 e
  · exact h3 e
  · exact h4 e

theorem not_padded (w n : Nat) {c : Char} (h : isDigit c = false) : c ∉ padded w n := by
  intro hc
  have := padded_all w n c hc
  rw [h] at this
  simp at this

/-- Two characters next to each other in the name of an integral, after the name of the network. -/
theorem pair_integral (round : ℚ → Four) {a b : Char} (ha : isDigit a = false) (h1 : a ≠ '.') (h2 : a ≠ 'e')
    (h3 : a ≠ '+') (h4 : a ≠ '-') (h5 : pair a b "_tau_w".toList = false ∧ "_tau_w".toList.getLast? ≠ some a)
    (h6 : pair a b "_PT_".toList = false ∧ "_PT_".toList.getLast? ≠ some a)
    (h7 : pair a b "lin_".toList = false ∧ "lin_".toList.getLast? ≠ some a)
    (h8 : pair a b "_to_".toList = false ∧ "_to_".toList.getLast? ≠ some a)
    (h9 : pair a b ".pickle".toList = false) (tau : ℚ) (k : Kind) (i j : Nat) :
    pair a b (Out.name round [] (.integral tau k i j)) = false := by
  unfold Out.name
  refine pair_skip (by simp) (pair_append h5.1 h5.2 (pair_skip (not_text _ ha h1 h2 h3 h4)
    (pair_append h6.1 h6.2 ?_)))
  have rest : pair a b (padded 6 i ++ ("_to_".toList ++ (padded 6 j ++ ".pickle".toList))) = false :=
    pair_skip (not_padded _ _ ha) (pair_append h8.1 h8.2 (pair_skip (not_padded _ _ ha) h9))
  cases k with
  | expm => exact rest
  | lin => exact pair_append h7.1 h7.2 rest

/-- A name is that of the network and the rest, which begins with an underscore. -/
theorem name_rest (round : ℚ → Four) (net : Text) (o : Out) : ∃ r, Out.name round net o = net ++ '_' :: r ∧
    Out.name round [] o = '_' :: r := by
  cases o with
  | integral tau k i j => exact ⟨_, rfl, rfl⟩
  | temp tau k i j => exact ⟨_, rfl, rfl⟩
  | laps e =>
    cases e with
    | mats tau k w ext =>
      refine ⟨"tau_w".toList ++ ((round tau).text ++ ("_int".toList ++ (padded 6 k ++ ("_".toList ++
        (w.suffix ++ ext))))), ?_, ?_⟩
      · simp only [Out.name, Entry.name, List.append_assoc]
        rfl
      · simp only [Out.name, Entry.name, List.append_assoc]
        rfl
    | adjacency k =>
      refine ⟨"static_adjacency_int".toList ++ (padded 6 k ++ ".pickle".toList), ?_, ?_⟩
      · simp only [Out.name, Entry.name, List.append_assoc]
        rfl
      · simp only [Out.name, Entry.name, List.append_assoc]
        rfl

theorem no_underscore_cross {sub a b : Text} (hu : '_' ∉ sub) (h : sub <:+: a ++ '_' :: b) :
    sub <:+: a ∨ sub <:+: '_' :: b := by
  rcases infix_cross h with h | h | ⟨p, q, rfl, _⟩
  · exact .inl h
  · exact .inr h
  · simp at hu

/-- A file with a time scale has none of the unwanted texts in its name if neither the network nor
the rest of the name has one. -/
theorem file_texts (round : ℚ → Four) {net : Text} {o : Out} (ht : ¬ "temp_integration".toList <:+: net)
    (ho : ¬ "pTpint".toList <:+: net) (h3 : (Out.name round [] o)[1]? = some 't')
    (ht' : ¬ "temp_integration".toList <:+: Out.name round [] o) (ho' : ¬ "pTpint".toList <:+: Out.name round [] o) :
    ¬ "temp_integration".toList <:+: Out.name round net o ∧ ¬ "pTpint".toList <:+: Out.name round net o := by
  obtain ⟨r, h1, h2⟩ := name_rest round net o
  constructor
  · intro h
    rw [h1] at h
    rcases infix_cross h with h | h | ⟨p, q, e, hq⟩
    · exact ht h
    · rw [← h2] at h
      exact ht' h
    · have hlen : p.length = 4 := by
        have h3 : p.length < 16 := by
          have := congrArg List.length e
          simp at this
          omega
        have h4 : "temp_integration".toList[p.length]? = some '_' := by rw [e]; simp
        have : ∀ n < 16, "temp_integration".toList[n]? = some '_' → n = 4 := by decide
        exact this _ h3 h4
      have h5 : q[0]? = some 'i' := by
        have : "temp_integration".toList[5]? = some 'i' := by decide
        rw [e, List.getElem?_append_right (by omega), hlen] at this
        simpa using this
      have h6 : r[0]? = some 't' := by
        rw [h2] at h3
        simpa using h3
      obtain ⟨t, rfl⟩ := hq
      cases q with
      | nil => simp at h5
      | cons c q =>
        simp at h5 h6
        rw [h5] at h6
        exact absurd h6 (by decide)
  · intro h
    rw [h1] at h
    rcases no_underscore_cross (by decide) h with h | h
    · exact ho h
    · rw [← h2] at h
      exact ho' h

/-- An integral has none of the unwanted texts in its name if the network has none. -/
theorem integral_texts (round : ℚ → Four) {net : Text} (ht : ¬ "temp_integration".toList <:+: net)
    (ho : ¬ "pTpint".toList <:+: net) (tau : ℚ) (k : Kind) (i j : Nat) :
    ¬ "temp_integration".toList <:+: Out.name round net (.integral tau k i j) ∧
    ¬ "pTpint".toList <:+: Out.name round net (.integral tau k i j) := by
  refine file_texts round ht ho rfl (fun h => ?_) (fun h => ?_)
  · have := pair_of_infix (a := 't') (b := 'e') (r := "mp_integration".toList) h
    rw [pair_integral round (by decide) (by decide) (by decide) (by decide) (by decide) (by decide) (by decide)
      (by decide) (by decide) (by decide)] at this
    simp at this
  · have := pair_of_infix (a := 'p') (b := 'T') (r := "pint".toList) h
    rw [pair_integral round (by decide) (by decide) (by decide) (by decide) (by decide) (by decide) (by decide)
      (by decide) (by decide) (by decide)] at this
    simp at this

/-- The same for the matrices of a time scale. -/
theorem mats_texts (round : ℚ → Four) {net : Text} (ht : ¬ "temp_integration".toList <:+: net)
    (ho : ¬ "pTpint".toList <:+: net) (tau : ℚ) (k : Nat) (w : Laps.What) (ext : Text)
    (hk : (Entry.mats tau k w ext).Known) :
    ¬ "temp_integration".toList <:+: Out.name round net (.laps (.mats tau k w ext)) ∧
    ¬ "pTpint".toList <:+: Out.name round net (.laps (.mats tau k w ext)) := by
  have he : Out.name round [] (.laps (.mats tau k w ext)) = "_tau_w".toList ++ ((round tau).text ++ ("_int".toList ++
      (padded 6 k ++ ("_".toList ++ (w.suffix ++ ext))))) := by
    simp only [Out.name, Entry.name, List.append_assoc, List.nil_append]
  have hext : 'T' ∉ ext ∧ 'm' ∉ ext := by rcases hk with rfl | rfl | rfl <;> decide
  have hw : 'T' ∉ w.suffix ∧ pair 'm' 'p' w.suffix = false ∧ w.suffix.getLast? ≠ some 'm' := by
    rcases w with (_ | _) | ⟨_ | _, _ | _⟩ | ⟨_ | _, _ | _⟩ <;> decide
  refine file_texts round ht ho (by rw [he]; rfl) (fun h => ?_) (fun h => ?_)
  · have h1 : ('m' :: 'p' :: "_integration".toList) <:+: Out.name round [] (.laps (.mats tau k w ext)) :=
      List.IsInfix.trans ⟨"te".toList, [], by decide⟩ h
    have := pair_of_infix h1
    rw [he, pair_skip (by decide) (pair_skip (not_text _ (by decide) (by decide) (by decide) (by decide) (by decide))
      (pair_skip (by decide) (pair_skip (not_padded _ _ (by decide)) (pair_skip (by decide)
      (pair_append hw.2.1 hw.2.2 (pair_none hext.2).1)))))] at this
    simp at this
  · have : 'T' ∈ Out.name round [] (.laps (.mats tau k w ext)) := h.subset (by decide)
    rw [he] at this
    simp only [List.mem_append] at this
    rcases this with h | h | h | h | h | h | h
    · exact absurd h (by decide)
    · exact not_text _ (by decide) (by decide) (by decide) (by decide) (by decide) h
    · exact absurd h (by decide)
    · exact not_padded _ _ (by decide) h
    · exact absurd h (by decide)
    · exact hw.1 h
    · exact hext.1 h

/-- The text before a time scale occurs in a longer name only as a whole. -/
theorem scale_inside {a b r : Text} (h : a ++ "_tau_w".toList <+: b ++ ("_tau_w".toList ++ r))
    (hlt : a.length < b.length) : "_tau_w".toList <:+: b := by
  obtain ⟨t, h⟩ := h
  rw [List.append_assoc, List.append_eq_append_iff] at h
  rcases h with ⟨u, rfl, h⟩ | ⟨u, rfl, h⟩
  · have hu : 0 < u.length := by simpa using hlt
    rcases Nat.lt_or_ge u.length 6 with h6 | h6
    · exfalso
      have e : ∀ n : Nat, ("_tau_w".toList ++ t)[n]? = (u ++ ("_tau_w".toList ++ r))[n]? := fun n => by rw [h]
      have key : ∀ n : Nat, u.length + n < 6 → "_tau_w".toList[u.length + n]? = ("_tau_w".toList ++ r)[n]? := by
        intro n hn
        have := e (u.length + n)
        rw [List.getElem?_append_left (by simpa using hn), List.getElem?_append_right (by omega)] at this
        simpa using this
      have k0 := key 0 (by omega)
      obtain ⟨m, hm⟩ : ∃ m, m = u.length := ⟨_, rfl⟩
      rw [← hm] at hu h6 key k0
      interval_cases m
      · simp at k0
      · simp at k0
      · simp at k0
      · have k1 := key 1 (by omega)
        simp at k1
      · simp at k0
    · have : "_tau_w".toList <+: u := by
        have h7 : "_tau_w".toList <+: u ++ ("_tau_w".toList ++ r) := ⟨t, h⟩
        exact List.prefix_of_prefix_length_le h7 (List.prefix_append _ _) (by simpa using h6)
      exact this.isInfix.trans (List.suffix_append _ _).isInfix
  · simp at hlt

end Verif.ClustMain
