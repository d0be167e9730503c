import Verif.LapMain.Spec

/-! # The worker in steps is the worker of C80 -/

set_option linter.dupNamespace false

namespace Verif.LapMain

open Verif.Scripts (Kind File)
open Verif.Laps

variable {τ L V : Type} [DecidableEq L]

/-- The process alone with its files. -/
def Prog.alone : Prog (L × What) V → Run L V → Run L V
  | .done, r => r
  | .ask q next, r => (next (r.disk q).isSome).alone r
  | .put q v next, r => next.alone (r.put q v)

theorem interP_alone (opt : Opt) (c : Calc τ L V) (tau : τ) (k : Kind) (fail : Prog (L × What) V)
    (next : Option V → Prog (L × What) V) (r : Run L V) :
    (interP opt c tau k fail next).alone r =
      match interStep opt c tau k r with
      | .error r' => fail.alone r'
      | .ok (r', v) => (next v).alone r' := by
  unfold interP interStep
  by_cases h1 : opt.use k = false
  · simp [h1]
  · rw [if_neg h1, if_neg h1]
    cases hi : c.inter k tau with
    | none => rfl
    | some v =>
      cases hs : opt.saveInter <;> cases hd : (r.disk (c.label tau, .inter k)).isSome <;> simp [Prog.alone, hd]

theorem sliceP_alone (opt : Opt) (c : Calc τ L V) (tau : τ) (k : Kind) (rev : Bool) (v : Option V)
    (next : Prog (L × What) V) (r : Run L V) :
    (sliceP opt c tau k rev v next).alone r = next.alone (sliceStep opt c tau k rev v r) := by
  unfold sliceP sliceStep
  cases v with
  | none => rfl
  | some v =>
    cases hf : opt.flow <;> cases hd : (r.disk (c.label tau, .slice k rev)).isSome <;> simp [Prog.alone, hd]

theorem tauP_alone (opt : Opt) (c : Calc τ L V) (tau : τ) (next : Prog (L × What) V) (r : Run L V) :
    (tauP opt c tau next).alone r = next.alone (tauStep opt c r tau) := by
  unfold tauP tauStep
  rw [interP_alone]
  cases h1 : interStep opt c tau .expm r with
  | error r' => rfl
  | ok x =>
    obtain ⟨r', e⟩ := x
    dsimp only
    rw [interP_alone]
    cases h2 : interStep opt c tau .lin r' with
    | error r'' => rfl
    | ok y =>
      obtain ⟨r'', l⟩ := y
      dsimp only
      split
      · rw [sliceP_alone, sliceP_alone, sliceP_alone, sliceP_alone]
      · rfl

theorem taus_alone (opt : Opt) (c : Calc τ L V) (taus : List τ) (r : Run L V) :
    (taus.foldr (tauP opt c) .done).alone r = taus.foldl (tauStep opt c) r := by
  induction taus generalizing r with
  | nil => rfl
  | cons t l ih => rw [List.foldr_cons, tauP_alone, ih, List.foldl_cons]

theorem both_alone (a b : L × What) (next : Bool → Prog (L × What) V) (r : Run L V) :
    (both a b next).alone r = (next ((r.disk a).isSome && (r.disk b).isSome)).alone r := by
  unfold both
  cases h : (r.disk a).isSome <;> simp [Prog.alone, h]

theorem checkP_alone (c : Calc τ L V) (taus : List τ) (r : Run L V) (next : Flags → Prog (L × What) V) :
    (checkP c taus next).alone r =
      (next ⟨taus.all fun t => (r.disk (c.label t, .slice .lin false)).isSome && (r.disk (c.label t, .slice .lin true)).isSome,
        taus.all fun t => (r.disk (c.label t, .slice .expm false)).isSome && (r.disk (c.label t, .slice .expm true)).isSome,
        taus.all fun t => (r.disk (c.label t, .inter .lin)).isSome,
        taus.all fun t => (r.disk (c.label t, .inter .expm)).isSome⟩).alone r := by
  induction taus generalizing next with
  | nil => rfl
  | cons t l ih =>
    rw [checkP, both_alone]
    simp only [Prog.alone]
    rw [both_alone]
    simp only [Prog.alone]
    rw [ih]
    rfl

theorem all_and {α : Type} (l : List α) (f g : α → Bool) : (l.all fun t => f t && g t) = (l.all f && l.all g) := by
  induction l with
  | nil => rfl
  | cons a l ih => simp only [List.all_cons, ih]; cases f a <;> cases g a <;> simp

/-- Alone with its files, the process does what the worker of C80 does. -/
theorem workerP_alone (opt : Opt) (c : Calc τ L V) (taus : List τ) (d : Disk L V) :
    (workerP opt c taus).alone ⟨d, []⟩ = worker opt c taus d := by
  unfold workerP worker allThere
  rw [checkP_alone]
  simp only [all_and]
  split
  · rfl
  · exact taus_alone opt c taus _

theorem alone_log (p : Prog (L × What) V) (r : Run L V) : r.log <+: (p.alone r).log := by
  induction p generalizing r with
  | done => exact List.prefix_refl _
  | ask q next ih => exact ih _ r
  | put q v next ih => exact (List.prefix_append _ _).trans (ih (r.put q v))

end Verif.LapMain
