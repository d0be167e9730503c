import Verif.LapMain.Spec
import Verif.Laps.Props
import Verif.Glob.Props
import Verif.CovMain.Scan

/-! # Names in the directory -/

set_option linter.dupNamespace false

namespace Verif.LapMain

open Verif.CovMain (Text padded)
open Verif.Scripts (Kind File)
open Verif.Laps Verif.Glob

variable {V : Type}

theorem padded_inj {w i j : Nat} (h : padded w i = padded w j) : i = j := by
  rw [← Verif.CovMain.padded_number w i, h, Verif.CovMain.padded_number]

theorem padded_plain (w i : Nat) : '_' ∉ padded w i := fun h => by
  have := Verif.CovMain.padded_all w i _ h
  exact absurd this (by decide)

/-- Two texts without underscore before an underscore. -/
theorem cut_eq {a b x y z w : Text} (ha : '_' ∉ a) (hb : '_' ∉ b) (h : a ++ '_' :: x ++ z = b ++ '_' :: y ++ w) :
    a = b ∧ x ++ z = y ++ w := by
  induction a generalizing b with
  | nil =>
    cases b with
    | nil => simpa using h
    | cons c b =>
      simp only [List.nil_append, List.cons_append, List.cons.injEq] at h
      exact absurd (by rw [h.1]; simp) hb
  | cons c a ih =>
    simp only [List.mem_cons, not_or] at ha
    cases b with
    | nil =>
      simp only [List.nil_append, List.cons_append, List.cons.injEq] at h
      exact absurd h.1.symm ha.1
    | cons d b =>
      simp only [List.mem_cons, not_or] at hb
      simp only [List.cons_append, List.cons.injEq] at h
      obtain ⟨h1, h2⟩ := ih ha.2 hb.2 h.2
      exact ⟨by rw [h.1, h1], h2⟩

/-- The name of a file begins with the searched name of no other slice, waiting time or kind. -/
theorem stem_prefix (s : Site) {i j : Nat} {q r : Label × What} {z : Text}
    (h : s.stem i q ++ z = s.stem j r ++ s.ext r.2) : i = j ∧ q = r := by
  unfold Site.stem at h
  rw [List.append_assoc, List.append_assoc (s.net ++ _)] at h
  have h := List.append_cancel_left h
  have e1 : ∀ (l : Label) (x : Text), l.1 ++ "_int".toList ++ x = l.1 ++ '_' :: ("int".toList ++ x) := by
    intro l x
    rw [List.append_assoc]
    rfl
  rw [e1, e1] at h
  obtain ⟨h1, h2⟩ := cut_eq q.1.2.1 r.1.2.1 h
  rw [List.append_assoc, List.append_assoc "int".toList] at h2
  have h2 := List.append_cancel_left h2
  have e2 : ∀ (k : Nat) (x : Text), padded 6 k ++ "_".toList ++ x = padded 6 k ++ '_' :: x := by
    intro k x
    rw [List.append_assoc]
    rfl
  rw [e2, e2] at h2
  obtain ⟨h3, h4⟩ := cut_eq (padded_plain 6 i) (padded_plain 6 j) h2
  refine ⟨padded_inj h3, Prod.ext (Subtype.ext h1) ?_⟩
  have p1 : q.2.suffix <+: r.2.suffix ++ s.ext r.2 := ⟨z, h4⟩
  rcases List.prefix_or_prefix_of_prefix p1 (List.prefix_append r.2.suffix (s.ext r.2)) with h | h
  · exact C80_names _ _ h
  · exact (C80_names _ _ h).symm

theorem file_inj (s : Site) {i j : Nat} {q r : Label × What} (h : s.file i q = s.file j r) : i = j ∧ q = r := by
  unfold Site.file at h
  have := List.append_cancel_left h
  simp only [List.cons.injEq, and_true] at this
  exact stem_prefix s this

theorem file_not_foreign (s : Site) (i : Nat) (q : Label × What) : ¬ s.Foreign (s.file i q) := by
  intro h
  refine h (q.1.1 ++ "_int".toList ++ (padded 6 i ++ "_".toList ++ q.2.suffix) ++ s.ext q.2) ?_
  unfold Site.file Site.stem
  simp only [List.append_assoc]

theorem suffix_ordinary (w : What) : Ordinary w.suffix := by
  have : ∀ w : What, (w.suffix.all fun c => decide (c ≠ '*' ∧ c ≠ '?' ∧ c ≠ '[')) = true := by
    rintro ((_ | _) | ⟨_ | _, _ | _⟩ | ⟨_ | _, _ | _⟩) <;> decide
  have h := List.all_eq_true.1 (this w)
  simp only [decide_eq_true_eq] at h
  exact ⟨fun hc => (h _ hc).1 rfl, fun hc => (h _ hc).2.1 rfl, fun hc => (h _ hc).2.2 rfl⟩

theorem padded_ordinary (w i : Nat) : Ordinary (padded w i) :=
  ⟨fun h => absurd (Verif.CovMain.padded_all w i _ h) (by decide), fun h => absurd (Verif.CovMain.padded_all w i _ h) (by decide),
    fun h => absurd (Verif.CovMain.padded_all w i _ h) (by decide)⟩

theorem Ordinary.append {a b : Text} (ha : Ordinary a) (hb : Ordinary b) : Ordinary (a ++ b) := by
  refine ⟨?_, ?_, ?_⟩ <;> rw [List.mem_append, not_or]
  · exact ⟨ha.1, hb.1⟩
  · exact ⟨ha.2.1, hb.2.1⟩
  · exact ⟨ha.2.2, hb.2.2⟩

instance (s : Text) : Decidable (Ordinary s) := inferInstanceAs (Decidable (_ ∧ _ ∧ _))

/-- What follows the name of the network. -/
def tail (i : Nat) (q : Label × What) : Text :=
  "_tau_w".toList ++ (q.1.1 ++ "_int".toList ++ (padded 6 i ++ "_".toList ++ q.2.suffix))

theorem tail_ordinary (i : Nat) (q : Label × What) : Ordinary (tail i q) := by
  unfold tail
  refine Ordinary.append (by decide) (Ordinary.append (Ordinary.append q.1.2.2 (by decide)) ?_)
  exact Ordinary.append (Ordinary.append (padded_ordinary 6 i) (by decide)) (suffix_ordinary q.2)

theorem stem_eq (s : Site) (i : Nat) (q : Label × What) : s.stem i q = s.net ++ tail i q := by
  unfold Site.stem tail
  simp only [List.append_assoc]

theorem stem_ordinary {s : Site} (h : s.Plain) (i : Nat) (q : Label × What) : Ordinary (s.stem i q) := by
  rw [stem_eq]
  exact Ordinary.append h.2 (tail_ordinary i q)

theorem stem_ne_nil (s : Site) (i : Nat) (q : Label × What) : s.stem i q ≠ [] := by
  intro h
  have := congrArg List.length h
  unfold Site.stem at this
  simp at this

/-- Files of the network and others. -/
def Tidy (s : Site) (fs : Fs V) : Prop := ∀ e ∈ fs, s.Foreign e.1 ∨ ∃ i q, e.1 = s.file i q

theorem get_isSome (fs : Fs V) (f : Path) : (fs.get f).isSome = true ↔ ∃ e ∈ fs, e.1 = f := by
  unfold Fs.get
  induction fs with
  | nil => simp
  | cons e fs ih =>
    rw [List.lookup_cons]
    by_cases h : f = e.1
    · subst h
      simp
    · rw [beq_false_of_ne h]
      simp only [ih, List.mem_cons, exists_eq_or_imp]
      exact ⟨.inr, fun h' => h'.resolve_left fun h'' => h h''.symm⟩

theorem get_cons (fs : Fs V) (f g : Path) (x : File V) : Fs.get ((f, x) :: fs) g = if g = f then some x else fs.get g := by
  unfold Fs.get
  rw [List.lookup_cons]
  by_cases h : g = f
  · simp [h]
  · rw [beq_false_of_ne h, if_neg h]

/-- In such a directory a search finds exactly the file that it is meant for. -/
theorem found_iff {s : Site} (hs : s.Plain) {fs : Fs V} (ht : Tidy s fs) (i : Nat) (q : Label × What) :
    s.found fs i q = (s.view fs i q).isSome := by
  rw [Bool.eq_iff_iff]
  unfold Site.found Site.view
  rw [List.any_eq_true, get_isSome]
  refine exists_congr fun e => and_congr_right fun he => ?_
  rw [C144_found_partial hs.1 (stem_ordinary hs i q) (stem_ne_nil s i q)]
  constructor
  · rintro ⟨z, hz⟩
    rcases ht e he with h | ⟨j, r, h⟩
    · refine absurd ?_ (h ((q.1.1 ++ "_int".toList ++ (padded 6 i ++ "_".toList ++ q.2.suffix)) ++ z))
      rw [hz]
      unfold Site.stem
      simp only [List.append_assoc]
    · rw [h] at hz
      unfold Site.file at hz
      have := List.append_cancel_left hz
      simp only [List.cons.injEq, and_true] at this
      obtain ⟨rfl, rfl⟩ := stem_prefix s this.symm
      exact h
  · intro h
    exact ⟨s.ext q.2, h⟩

end Verif.LapMain
