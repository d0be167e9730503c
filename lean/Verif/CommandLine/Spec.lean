import Verif.CommandLine.Model

/-!
# Command lines: vocabulary of the statements
-/

set_option linter.dupNamespace false

namespace Verif.CommandLine

variable {V : Type}

/-- What the user gives for an option: nothing but its name, a value, or some values. -/
inductive Given
  | name
  | value (t : Text)
  | values (t : Text) (ts : List Text)

/-- The words for an option. -/
def words (g : Opt V × Given) : List Text :=
  match g.2 with
  | .name => [g.1.name]
  | .value t => [g.1.name, t]
  | .values t ts => g.1.name :: t :: ts

/-- The setting that is meant, if the option takes what is given. -/
def meant (conv : Ty → Text → Option V) (g : Opt V × Given) : Option (Setting V) :=
  match g.1.kind, g.2 with
  | .on, .name => some (.flag true)
  | .off, .name => some (.flag false)
  | .one ty, .value t => (conv ty t).map .one
  | .many ty, .values t ts => ((t :: ts).mapM (conv ty)).map .many
  | _, _ => none

/-- The values. -/
def Given.texts : Given → List Text
  | .name => []
  | .value t => [t]
  | .values t ts => t :: ts

/-- A word that does not begin with a dash, or a negative number. -/
def Plain (neg : Text → Bool) (t : Text) : Prop :=
  t.head? ≠ some '-' ∨ ∃ c r, t = '-' :: c :: r ∧ c ≠ '-' ∧ c ≠ 'h' ∧ neg t = true

/-- Options whose names are different, begin with two dashes and go on without `=`. -/
structure Proper (opts : List (Opt V)) : Prop where
  different : (opts.map Opt.name).Nodup
  dashes : ∀ o ∈ opts, ∃ c r, o.name = '-' :: '-' :: c :: r
  equals : ∀ o ∈ opts, '=' ∉ o.name

/-- The user gives options that exist, each with what it takes. -/
def Allowed (opts : List (Opt V)) (neg : Text → Bool) (conv : Ty → Text → Option V) (given : List (Opt V × Given)) : Prop :=
  ∀ g ∈ given, g.1 ∈ opts ∧ (meant conv g).isSome ∧ ∀ t ∈ g.2.texts, Plain neg t

/-- The setting of an option: what was given last for it, or its default. -/
def wanted (conv : Ty → Text → Option V) (given : List (Opt V × Given)) (o : Opt V) : Setting V :=
  ((given.reverse.find? fun g => g.1.name = o.name).bind (meant conv)).getD o.default

end Verif.CommandLine
