/-!
# Model of `src/flowstab/state_tracking.py`

Everything here mirrors the metaclass `StateMeta`, the class `State` and the
decorator `register`.  Enumeration members are represented by their integer
value: `OrderedEnum` (state_tracking.py:62-84) compares members by value only.
-/

namespace Verif.StateTracking

/-- Attribute names of the tracked class (keys of the class namespace).  States are
plain `Int`s, the value of a member of the `OrderedEnum` (state_tracking.py:62-84). -/
abbrev Name := String

/-- What `register` attaches to one attribute (state_tracking.py:315-400):
`prop` is a property whose setter was wrapped (lines 336-358), `step` is a
wrapped method (lines 360-398).  A step may be registered without
`minimal_state` (default `None`, line 316). -/
inductive Kind where
  | prop (next : Int) (ignoreNone : Bool)
  | step (minimal : Option Int) (next : Int)
deriving DecidableEq, Repr

/-- One registered entry of the class namespace.  Simplification: the name of the
setter function (`func.fset.__name__`, line 339) is taken to be the name of the
property, as it is for every property written with `@name.setter`. -/
structure Item where
  name : Name
  kind : Kind
deriving DecidableEq, Repr

/-- The class as `StateMeta.__new__` sees it (state_tracking.py:167-188): the
values of the state enumeration and the registered entries in namespace order. -/
structure ClassDesc where
  states : List Int
  items : List Item

namespace ClassDesc

/-- `_state_map` / `_property_next_state` restricted to properties
(state_tracking.py:227-234): name and next state, in namespace order. -/
def props (c : ClassDesc) : List (Name × Int) :=
  c.items.filterMap fun i => match i.kind with
    | .prop next _ => some (i.name, next)
    | .step _ _ => none

/-- `_next_method_map` (state_tracking.py:217-225): name and minimal state of each
registered method, in namespace order. -/
def steps (c : ClassDesc) : List (Name × Option Int) :=
  c.items.filterMap fun i => match i.kind with
    | .prop _ _ => none
    | .step minimal _ => some (i.name, minimal)

/-- All states mentioned by a registration (state_tracking.py:236-238): minimal
states that are not `None`, and next states.  A property registered through
`register` has `minimal_state = None` unless given; the code never passes one for
a property, so only next states of properties are collected. -/
def mentioned (c : ClassDesc) : List Int :=
  c.items.flatMap fun i => match i.kind with
    | .prop next _ => [next]
    | .step none next => [next]
    | .step (some m) next => [m, next]

/-- Insertion of a stage into a strictly increasing list (one step of
`sorted(set(...))`, state_tracking.py:236-241). -/
def insertStage (s : Int) : List Int → List Int
  | [] => [s]
  | t :: ts => if s < t then s :: t :: ts else if s = t then t :: ts else t :: insertStage s ts

/-- `state._all_states` (state_tracking.py:236-241): the mentioned states, sorted,
without repetition. -/
def allStates (c : ClassDesc) : List Int :=
  c.mentioned.foldr insertStage []

/-- `_included_states` (state_tracking.py:247-251): the states of `allStates` up to
and including `current`, found by scanning until equality. -/
def included (current : Int) : List Int → List Int
  | [] => []
  | t :: ts => if t = current then [t] else t :: included current ts

/-- `_property_required[current]` (state_tracking.py:258-260), or `[]` when the
state has no entry in the table (`.get(state, [])`, lines 135-137 and 376-378). -/
def propertiesRequired (c : ClassDesc) (current : Int) : List Name :=
  if current ∈ c.allStates then
    (c.props.filter fun p => p.2 ∈ included current c.allStates).map (·.1)
  else []

/-- What `_next_method.get(current)` can return (state_tracking.py:155, 243,
255-257): `None` when the state has no entry, the initial `[]` when no method
qualifies, else a method name. -/
inductive NextMethod where
  | noEntry
  | emptyList
  | name (n : Name)
deriving DecidableEq, Repr

/-- `_next_method.get(current)`: the loop of lines 255-257 overwrites the entry with
each qualifying method, so that the last one in namespace order stays. -/
def nextMethod (c : ClassDesc) (current : Int) : NextMethod :=
  if current ∈ c.allStates then
    c.steps.foldl (fun acc st => match st.2 with
      | none => acc
      | some m => if m ∈ included current c.allStates then .name st.1 else acc) .emptyList
  else .noEntry

/-- Look up a registered entry by name (attribute access on the class). -/
def find (c : ClassDesc) (n : Name) : Option Kind :=
  (c.items.find? fun i => i.name = n).map (·.kind)

end ClassDesc

/-- Atomic things that really happened, recorded for the statements only: a setter
that completed, a step body that was entered, a step body that completed. -/
inductive Event (V : Type) where
  | assigned (p : Name) (v : Option V)
  | entered (m : Name)
  | completed (m : Name)
deriving DecidableEq, Repr

/-- An instance of the tracked class: its own data `obj`, and the per-instance
`State` (state_tracking.py:93-122, 293-297): `current` and `properties_set`.
`log` is a ghost field, newest event first; the model never reads it. -/
structure World (σ V : Type) where
  obj : σ
  current : Int
  flags : Name → Bool
  log : List (Event V)

/-- The Python code inside setters and step bodies.  `setter p v` is the original,
undecorated setter: it may raise and may have changed the object before raising. -/
structure Code (σ V E : Type) where
  setter : Name → Option V → σ → Option E × σ

/-- A step body.  It can read and change the object's own data, assign registered
properties (possibly catching the exception of the setter), return, or raise.
Simplification: a body does not call other registered steps (no body in
flow_stability.py does). -/
inductive Body (σ V E : Type) where
  | ret
  | raise (e : E)
  | read (k : σ → Body σ V E)
  | update (f : σ → σ) (k : Body σ V E)
  | assign (p : Name) (v : Option V) (k : Option E → Body σ V E)

variable {σ V E : Type}

/-- `wrapped_setter` (state_tracking.py:342-352): run the original setter; if it
raises, nothing else happens; otherwise update the flag and lower the state. -/
def assign (code : Code σ V E) (p : Name) (next : Int) (ignoreNone : Bool)
    (v : Option V) (w : World σ V) : Option E × World σ V :=
  match code.setter p v w.obj with
  | (some e, o) => (some e, { w with obj := o })
  | (none, o) =>
    (none,
      { obj := o
        flags := fun q => if q = p then (if v.isNone && ignoreNone then false else true)
                 else w.flags q
        current := min w.current next
        log := .assigned p v :: w.log })

/-- Assignment `self.p = v` looked up on the class: registered properties go through
`wrapped_setter`; any other attribute is not tracked and is not modelled. -/
def assignNamed (c : ClassDesc) (code : Code σ V E) (p : Name) (v : Option V)
    (w : World σ V) : Option E × World σ V :=
  match c.find p with
  | some (.prop next ignoreNone) => assign code p next ignoreNone v w
  | _ => (none, w)

/-- Execution of a step body: `none` if it returned, `some e` if it raised. -/
def exec (c : ClassDesc) (code : Code σ V E) : Body σ V E → World σ V → Option E × World σ V
  | .ret, w => (none, w)
  | .raise e, w => (some e, w)
  | .read k, w => exec c code (k w.obj) w
  | .update f k, w => exec c code k { w with obj := f w.obj }
  | .assign p v k, w =>
    let r := assignNamed c code p v w
    exec c code (k r.1) r.2

/-- Result of calling a registered step. -/
inductive Outcome (E : Type) where
  /-- warning, `None` returned: state below the minimal state (lines 367-373) -/
  | refusedState
  /-- warning, `None` returned: required properties missing (lines 383-389) -/
  | refusedMissing (missing : List Name)
  /-- the body ran and returned (lines 391-393) -/
  | returned
  /-- the body ran and raised -/
  | raised (e : E)
  /-- `_current_state < None` (line 367) when registered without minimal state -/
  | typeError
  /-- no such registered step -/
  | unknown
deriving DecidableEq, Repr

/-- `_missing_props` (state_tracking.py:376-382): required for the *minimal* state of
the step and not flagged. -/
def missingFor (c : ClassDesc) (minimal : Int) (flags : Name → Bool) : List Name :=
  (c.propertiesRequired minimal).filter fun p => !flags p

/-- The method wrapper (state_tracking.py:361-394).  `body` is the undecorated
method applied to the arguments of this call. -/
def call (c : ClassDesc) (code : Code σ V E) (m : Name) (body : Body σ V E)
    (w : World σ V) : Outcome E × World σ V :=
  match c.find m with
  | some (.step (some minimal) next) =>
    if w.current < minimal then (.refusedState, w)
    else
      let missing := missingFor c minimal w.flags
      if missing ≠ [] then (.refusedMissing missing, w)
      else
        match exec c code body { w with log := .entered m :: w.log } with
        | (some e, w') => (.raised e, w')
        | (none, w') => (.returned, { w' with current := next, log := .completed m :: w'.log })
  | some (.step none _) => (.typeError, w)
  | _ => (.unknown, w)

/-- Smallest value of the enumeration (`min(self._states, ...)`, line 117). -/
def minStage : List Int → Option Int
  | [] => none
  | s :: ts => match minStage ts with
    | none => some s
    | some t => some (min s t)

/-- State of a fresh instance before the user's `__init__` runs
(state_tracking.py:293-297): smallest state, all registered properties unset.  An
empty enumeration makes `min` raise `ValueError`: no instance. -/
def fresh (c : ClassDesc) (o : σ) : Option (World σ V) :=
  (minStage c.states).map fun s => { obj := o, current := s, flags := fun _ => false, log := [] }

/-- One user action on an instance: assigning a registered property or calling a
step whose body, for the arguments given, is `body`. -/
inductive Op (σ V E : Type) where
  | assign (p : Name) (v : Option V)
  | call (m : Name) (body : Body σ V E)

/-- Effect of one user action on the instance (exceptions reach the user, who may
go on using the instance). -/
def step (c : ClassDesc) (code : Code σ V E) (w : World σ V) : Op σ V E → World σ V
  | .assign p v => (assignNamed c code p v w).2
  | .call m body => (call c code m body w).2

/-- Effect of a history of user actions. -/
def run (c : ClassDesc) (code : Code σ V E) (w : World σ V) (ops : List (Op σ V E)) :
    World σ V :=
  ops.foldl (step c code) w

/-- `State.missing_parameters` (state_tracking.py:124-142). -/
def missingParameters (c : ClassDesc) (w : World σ V) : List Name :=
  (c.propertiesRequired w.current).filter fun p => !w.flags p

/-- `State.next` (state_tracking.py:144-156). -/
def next (c : ClassDesc) (w : World σ V) : List Name × ClassDesc.NextMethod :=
  (missingParameters c w, c.nextMethod w.current)

end Verif.StateTracking
