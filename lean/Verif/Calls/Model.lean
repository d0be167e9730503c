import Mathlib.Data.List.Basic

/-!
# How Python matches the arguments of a call with the parameters of a function

The signature of a function and the shape of a call, without the values, and what the interpreter
does with them before the body runs (The Python Language Reference, "Calls").  No function of the
library that is called here takes `*args` or positional-only parameters, so these are left out.
-/

set_option linter.dupNamespace false

namespace Verif.Calls

/-- A parameter; `needed` if it has no default value. -/
structure Param where
  name : String
  needed : Bool
  deriving DecidableEq, Repr

/-- A parameter without and with a default value. -/
def need (n : String) : Param := ⟨n, true⟩
/-- See `need`. -/
def opt (n : String) : Param := ⟨n, false⟩

/-- The parameters before and after `*`, and whether there is a `**kwargs` that takes all other
names. -/
structure Sig where
  pos : List Param
  kwOnly : List Param
  more : Bool
  deriving DecidableEq, Repr

/-- The shape of a call: the number of positional arguments and the names of the others, with
those of `**args` written out. -/
structure Call where
  args : Nat
  kws : List String
  deriving DecidableEq, Repr

/-- All parameters. -/
def Sig.params (s : Sig) : List Param := s.pos ++ s.kwOnly

/-- The argument that a parameter gets. -/
inductive Slot
  | arg (i : Nat)
  | kw (k : String)
  deriving DecidableEq, Repr

/-- The `TypeError`s of a call. -/
inductive Error
  /-- takes … positional arguments but … were given -/
  | tooMany
  /-- got an unexpected keyword argument -/
  | unexpected (k : String)
  /-- got multiple values for argument -/
  | multiple (k : String)
  /-- missing a required argument -/
  | missing (n : String)
  deriving DecidableEq, Repr

/-- One argument given by name. -/
def addKw (s : Sig) (b : List (String × Slot)) (k : String) : Except Error (List (String × Slot)) :=
  if k ∈ b.map Prod.fst then .error (.multiple k)
  else if k ∈ s.params.map Param.name ∨ s.more = true then .ok (b ++ [(k, .kw k)])
  else .error (.unexpected k)

/-- The arguments given by name, one after the other. -/
def addKws (s : Sig) : List (String × Slot) → List String → Except Error (List (String × Slot))
  | b, [] => .ok b
  | b, k :: ks =>
    match addKw s b k with
    | .error e => .error e
    | .ok b => addKws s b ks

/-- What a call binds, or the `TypeError`. -/
def bind (s : Sig) (c : Call) : Except Error (List (String × Slot)) :=
  if s.pos.length < c.args then .error .tooMany
  else
    match addKws s (((s.pos.take c.args).zipIdx).map fun q => (q.1.name, .arg q.2)) c.kws with
    | .error e => .error e
    | .ok b =>
      match s.params.find? fun p => p.needed && !(b.map Prod.fst).contains p.name with
      | some p => .error (.missing p.name)
      | none => .ok b

/-- The body of the function runs. -/
def accepted (s : Sig) (c : Call) : Bool :=
  match bind s c with
  | .ok _ => true
  | .error _ => false

end Verif.Calls
