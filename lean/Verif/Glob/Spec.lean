import Verif.CovMain.Names

/-! # Names with special characters: vocabulary of the statements -/

set_option linter.dupNamespace false

namespace Verif.Glob

open Verif.CovMain (Text)

/-- A text in which nothing has a special meaning for `glob`. -/
def Ordinary (s : Text) : Prop := '*' ∉ s ∧ '?' ∉ s ∧ '[' ∉ s

/-- Characters between brackets that stand for themselves: at least one, no closing bracket, no
hyphen, and no exclamation mark. -/
def Choice (s : Text) : Prop := s ≠ [] ∧ ']' ∉ s ∧ '-' ∉ s ∧ '!' ∉ s

end Verif.Glob
