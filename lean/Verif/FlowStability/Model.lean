import Verif.StateTracking.Model

/-!
# Model of `src/flowstab/flow_stability.py` (class `FlowStability`)

The class is an instance of the generic state machine of `StateTracking.Model`.
What the temporal network and the flow clustering objects compute is external here
(`Ext`): the model covers the order of the steps, the properties, the fields and the
exceptions.  Floating point numbers are rationals.
-/

namespace Verif.FlowStability

open Verif.StateTracking

/-- Exceptions that can reach the caller of `FlowStability` methods.  `ext` is any
exception raised by the network or clustering code; `ext true` is a `ValueError`
(the only one `set_flow_clustering` catches, flow_stability.py:658, 674). -/
inductive Exc where
  | typeError
  | valueError
  | assertionError
  | attributeError
  | keyError
  | ext (isValueError : Bool)
deriving DecidableEq, Repr

/-- `isinstance(e, ValueError)`. -/
def Exc.isValueError : Exc → Bool
  | .valueError => true
  | .ext b => b
  | _ => false

/-- A Python iterable of time scales (`None` or numbers): `reusable` yields the same
items at every iteration (list, tuple, array), `oneShot` is an iterator, whose items
are consumed by the first loop over it. -/
inductive PyIter where
  | reusable (l : List (Option Rat))
  | oneShot (l : List (Option Rat))
deriving DecidableEq, Repr

/-- One complete `for` loop over the iterable: the items seen, and the iterable
afterwards. -/
def PyIter.loop : PyIter → List (Option Rat) × PyIter
  | .reusable l => (l, .reusable l)
  | .oneShot l => (l, .oneShot [])

/-- Python values that can be assigned to the tracked properties, as far as the
setters tell them apart.  `N` is the type of temporal networks, `F` of flow
clusterings.  `flow ts f` is a pair whose second component is a
`FlowIntegralClustering` (with its `reversed_time` flag) or, for `none`, any other
object.  `generator` is an iterator that `copy.copy` refuses. `other` is any value of
another type. -/
inductive Val (N F : Type) where
  | net (n : N)
  | num (q : Rat)
  | int (i : Int)
  | items (l : PyIter)
  | generator (l : List (Option Rat))
  | flow (ts : Option Rat) (f : Option (F × Bool))
  | other

/-- The fields of a `FlowStability` instance (flow_stability.py:132-138).  The two
dictionaries map a time scale to the stored clustering (`some none`: the key is
present with value `None`).  The getters return the fields (flow_stability.py:198-209,
442-452, 544-554, 584-594); `__repr__` prints four of them (flow_stability.py:141-146). -/
structure Obj (N F : Type) where
  temporalNetwork : Option N
  tStart : Option (Val N F)
  tStop : Option (Val N F)
  timeScale : PyIter
  timeDirection : Int
  forward : Option Rat → Option (Option F)
  backward : Option Rat → Option (Option F)

/-- The external numerical code called by `FlowStability`.  `A` is the type of keyword
arguments that are passed through.  Functions that mutate their object return the
exception, if any, together with the mutated object. -/
structure Ext (N F A : Type) where
  /-- `ContTempNetwork(**kwargs)` (flow_stability.py:267) -/
  mkNet : A → Except Exc N
  /-- `compute_laplacian_matrices(t_start=.., t_stop=.., **kwargs)` (497) -/
  laplacians : N → Option (Val N F) → Option (Val N F) → A → Option Exc × N
  /-- `compute_inter_transition_matrices` or its linear variant (518-521, 540) -/
  interT : Bool → N → Option Rat → A → Option Exc × N
  /-- `inter_T[lamda]` exists (650); otherwise `KeyError`/`AttributeError` -/
  hasInterT : N → Option Rat → Bool
  /-- `FlowIntegralClustering(T_inter_list=.., time_list=.., reverse_time=.., **kwargs)` -/
  mkFlow : N → Option Rat → Bool → A → Except Exc F
  /-- `find_louvain_clustering(**kwargs)` of a flow clustering (711, 718) -/
  louvain : F → A → Option Exc × F

variable {N F A : Type}

/-- Time scale is acceptable: `not (_ts is not None and _ts <= 0)` (flow_stability.py:321-323). -/
def validScale : Option Rat → Bool
  | none => true
  | some q => !decide (q ≤ 0)

/-- Validation and storing of a time scale collection (flow_stability.py:319-331): the
validation loop runs over the very object that is then stored. -/
def storeTimeScale (it : PyIter) (o : Obj N F) : Option Exc × Obj N F :=
  let r := it.loop
  if r.1.all validScale then (none, { o with timeScale := r.2 })
  else (some .valueError, o)

/-- The undecorated setters of `FlowStability` (flow_stability.py:211-244, 287-331,
393-409, 425-440, 454-475, 556-583, 596-622). -/
def setter (p : Name) (v : Option (Val N F)) (o : Obj N F) : Option Exc × Obj N F :=
  if p = "temporal_network" then
    -- 227-243: any other type is replaced by None, with a log message only
    match v with
    | some (.net n) => (none, { o with temporalNetwork := some n })
    | none => (none, { o with temporalNetwork := none })
    | some _ => (none, { o with temporalNetwork := none })
  else if p = "time_scale" then
    -- 307-331
    match v with
    | none => storeTimeScale (.reusable [none]) o
    | some (.num q) => storeTimeScale (.reusable [some q]) o
    | some (.int i) => storeTimeScale (.reusable [some (i : Rat)]) o
    | some (.items l) => storeTimeScale l o      -- `copy` keeps the kind of iterable
    | some (.generator _) => (some .typeError, o) -- `copy(generator)` raises TypeError
    | some _ => (some .typeError, o)
  else if p = "t_start" then (none, { o with tStart := v })
  else if p = "t_stop" then (none, { o with tStop := v })
  else if p = "time_direction" then
    -- 471-475
    match v with
    | none => (none, { o with timeDirection := 0 })
    | some (.int i) =>
      if i = -1 ∨ i = 0 ∨ i = 1 then (none, { o with timeDirection := i })
      else (some .assertionError, o)
    | some (.num q) =>
      if q = -1 then (none, { o with timeDirection := -1 })
      else if q = 0 then (none, { o with timeDirection := 0 })
      else if q = 1 then (none, { o with timeDirection := 1 })
      else (some .assertionError, o)
    | some _ => (some .assertionError, o)
  else if p = "flow_clustering_forward" then
    -- 573-583: a value that is not a pair cannot be unpacked
    match v with
    | some (.flow ts (some (f, reversed))) =>
      if reversed then (some .assertionError, o)
      else (none, { o with forward := fun k => if k = ts then some (some f) else o.forward k })
    | some (.flow ts none) =>
      (none, { o with forward := fun k => if k = ts then some none else o.forward k })
    | _ => (some .typeError, o)
  else if p = "flow_clustering_backward" then
    -- 612-622
    match v with
    | some (.flow ts (some (f, reversed))) =>
      if reversed then
        (none, { o with backward := fun k => if k = ts then some (some f) else o.backward k })
      else (some .assertionError, o)
    | some (.flow ts none) =>
      (none, { o with backward := fun k => if k = ts then some none else o.backward k })
    | _ => (some .typeError, o)
  else (none, o)

/-- The setters as code of the tracked class. -/
def code : Code (Obj N F) (Val N F) Exc := ⟨setter⟩

/-- Registrations of `FlowStability` in namespace order (flow_stability.py:71-84 for
the stages; 211, 246, 287, 393, 425, 454, 477, 500, 556, 596, 624, 684 for the
entries). -/
def desc : ClassDesc where
  states := [0, 1, 2, 3, 4, 5]
  items := [
    ⟨"temporal_network", .prop 1 true⟩,
    ⟨"set_temporal_network", .step (some 0) 1⟩,
    ⟨"time_scale", .prop 2 true⟩,
    ⟨"t_start", .prop 1 false⟩,
    ⟨"t_stop", .prop 1 false⟩,
    ⟨"time_direction", .prop 3 true⟩,
    ⟨"compute_laplacian_matrices", .step (some 1) 2⟩,
    ⟨"compute_inter_transition_matrices", .step (some 2) 3⟩,
    ⟨"flow_clustering_forward", .prop 4 true⟩,
    ⟨"flow_clustering_backward", .prop 4 true⟩,
    ⟨"set_flow_clustering", .step (some 3) 4⟩,
    ⟨"find_louvain_clustering", .step (some 4) 5⟩]

/-- Body type of `FlowStability` steps. -/
abbrev FBody (N F : Type) := Body (Obj N F) (Val N F) Exc

/-- Return, or let the exception through. -/
def finish : Option Exc → FBody N F
  | none => .ret
  | some e => .raise e

/-- `set_temporal_network` (flow_stability.py:246-268); `kw = none` means no keyword
arguments. -/
def setTemporalNetwork (x : Ext N F A) (kw : Option A) : FBody N F :=
  match kw with
  | none => .assign "temporal_network" none finish
  | some a => match x.mkNet a with
    | .error e => .raise e
    | .ok n => .assign "temporal_network" (some (.net n)) finish

/-- `compute_laplacian_matrices` (flow_stability.py:477-498): attribute access on the
stored network raises when it is `None`. -/
def computeLaplacians (x : Ext N F A) (kw : A) : FBody N F :=
  .read fun o => match o.temporalNetwork with
    | none => .raise .attributeError
    | some n =>
      let r := x.laplacians n o.tStart o.tStop kw
      .update (fun o => { o with temporalNetwork := some r.2 }) (finish r.1)

/-- The loop of `compute_inter_transition_matrices` (flow_stability.py:529-541).
`badKw` tells that a `time_scale` keyword is still among the arguments, which the
network method rejects with `TypeError`. -/
def interLoop (x : Ext N F A) (lin badKw : Bool) (kw : A) : List (Option Rat) → FBody N F
  | [] => .ret
  | ts :: rest =>
    if badKw then .raise .typeError
    else .read fun o => match o.temporalNetwork with
      | none => .raise .attributeError
      | some n =>
        let r := x.interT lin n (ts.map fun q => 1 / q) kw
        .update (fun o => { o with temporalNetwork := some r.2 })
          (match r.1 with
            | some e => .raise e
            | none => interLoop x lin badKw kw rest)

/-- Loop over `self.time_scale` (a getter returning `iter(self._time_scale)`,
flow_stability.py:285): the items, with the stored iterable advanced. -/
def forTimeScales (k : List (Option Rat) → FBody N F) : FBody N F :=
  .read fun o =>
    .update (fun o => { o with timeScale := o.timeScale.loop.2 }) (k o.timeScale.loop.1)

/-- `compute_inter_transition_matrices` (flow_stability.py:500-542).  `tsKw` is the
`time_scale` keyword (`none`: absent, `some v`: present with value `v`), `lamdaKw`
tells that a `lamda` keyword that is not `None` is present: then `kwargs['lamba']`
(526) raises `KeyError`. -/
def computeInterT (x : Ext N F A) (lin : Bool) (tsKw : Option (Option (Val N F)))
    (lamdaKw : Bool) (kw : A) : FBody N F :=
  .read fun o => match o.temporalNetwork with
    | none => .raise .attributeError
    | some _ =>
      match tsKw with
      | some (some v) =>
        .assign "time_scale" (some v) fun e => match e with
          | some e => .raise e
          | none => forTimeScales (interLoop x lin true kw)
      | some none => forTimeScales (interLoop x lin true kw)
      | none =>
        if lamdaKw then .raise .keyError
        else forTimeScales (interLoop x lin false kw)

/-- Assignment inside `try ... except ValueError` (flow_stability.py:651-661, 666-677). -/
def tryAssign (p : Name) (v : Val N F) (k : FBody N F) : FBody N F :=
  .assign p (some v) fun e => match e with
    | none => k
    | some e => if e.isValueError then k else .raise e

/-- Creation of one clustering in `try ... except ValueError` and its assignment. -/
def tryFlow (p : Name) (made : Except Exc F) (ts : Option Rat) (reversed : Bool)
    (k : FBody N F) : FBody N F :=
  match made with
  | .error e => if e.isValueError then k else .raise e
  | .ok f => tryAssign p (.flow ts (some (f, reversed))) k

/-- The loop of `set_flow_clustering` (flow_stability.py:638-682). -/
def flowLoop (x : Ext N F A) (kw : A) : List (Option Rat) → FBody N F
  | [] => .ret
  | ts :: rest =>
    .read fun o => match o.temporalNetwork with
      | none => .raise .attributeError
      | some n =>
        let lam := ts.map fun q => 1 / q
        if x.hasInterT n lam then
          let fwd : FBody N F := .read fun o =>
            if 0 ≤ o.timeDirection then
              tryFlow "flow_clustering_forward" (x.mkFlow n lam false kw) ts false
                (flowLoop x kw rest)
            else flowLoop x kw rest
          if o.timeDirection ≤ 0 then
            tryFlow "flow_clustering_backward" (x.mkFlow n lam true kw) ts true fwd
          else fwd
        else .raise .keyError

/-- `set_flow_clustering` (flow_stability.py:624-682). -/
def setFlowClustering (x : Ext N F A) (kw : A) : FBody N F :=
  forTimeScales (flowLoop x kw)

/-- `dict[ts].find_louvain_clustering(**kwargs)`: missing key, stored `None`, or a
clustering. -/
def louvainOn (x : Ext N F A) (kw : A) (found : Option (Option F))
    (store : F → Obj N F → Obj N F) (k : FBody N F) : FBody N F :=
  match found with
  | none => .raise .keyError
  | some none => .raise .attributeError
  | some (some f) =>
    let r := x.louvain f kw
    .update (store r.2) (match r.1 with
      | some e => .raise e
      | none => k)

/-- The loop of `find_louvain_clustering` (flow_stability.py:700-720). -/
def louvainLoop (x : Ext N F A) (kw : A) : List (Option Rat) → FBody N F
  | [] => .ret
  | ts :: rest =>
    let fwd : FBody N F := .read fun o =>
      if 0 ≤ o.timeDirection then
        louvainOn x kw (o.forward ts)
          (fun f o => { o with forward := fun k => if k = ts then some (some f) else o.forward k })
          (louvainLoop x kw rest)
      else louvainLoop x kw rest
    .read fun o =>
      if o.timeDirection ≤ 0 then
        louvainOn x kw (o.backward ts)
          (fun f o => { o with backward := fun k => if k = ts then some (some f) else o.backward k })
          fwd
      else fwd

/-- `find_louvain_clustering` (flow_stability.py:684-721). -/
def findLouvain (x : Ext N F A) (kw : A) : FBody N F :=
  forTimeScales (louvainLoop x kw)

/-- A `FlowStability` instance. -/
abbrev FWorld (N F : Type) := World (Obj N F) (Val N F)

/-- What a user can do with an instance: assign a tracked property, or call one of the
five steps. -/
inductive FOp (N F A : Type) where
  | assign (p : Name) (v : Option (Val N F))
  | setTemporalNetwork (kw : Option A)
  | computeLaplacians (kw : A)
  | computeInterT (lin : Bool) (tsKw : Option (Option (Val N F))) (lamdaKw : Bool) (kw : A)
  | setFlowClustering (kw : A)
  | findLouvain (kw : A)
  | setTimeScale (value : Option (Val N F)) (logspace : Option (List Rat))

/-- `set_time_scale` (flow_stability.py:333-358), an untracked helper that assigns
`time_scale`: the value if given, else the array `np.logspace(**kwargs)` (whose items
are a parameter of the model) if there are keyword arguments, else `None`. -/
def timeScaleValue : Option (Val N F) → Option (List Rat) → Option (Val N F)
  | some v, _ => some v
  | none, some l => some (.items (.reusable (l.map some)))
  | none, none => none

/-- The user action in terms of the generic machine. -/
def FOp.toOp (x : Ext N F A) : FOp N F A → Op (Obj N F) (Val N F) Exc
  | .assign p v => .assign p v
  | .setTemporalNetwork kw => .call "set_temporal_network" (FlowStability.setTemporalNetwork x kw)
  | .computeLaplacians kw =>
    .call "compute_laplacian_matrices" (FlowStability.computeLaplacians x kw)
  | .computeInterT lin tsKw lamdaKw kw =>
    .call "compute_inter_transition_matrices" (FlowStability.computeInterT x lin tsKw lamdaKw kw)
  | .setFlowClustering kw => .call "set_flow_clustering" (FlowStability.setFlowClustering x kw)
  | .findLouvain kw => .call "find_louvain_clustering" (FlowStability.findLouvain x kw)
  | .setTimeScale v l => .assign "time_scale" (timeScaleValue v l)

/-- Instance before `__init__` assigns anything; the field values are placeholders
that `__init__` overwrites before they can be read. -/
def blank : FWorld N F :=
  { obj := { temporalNetwork := none, tStart := none, tStop := none
             timeScale := .reusable [], timeDirection := 0
             forward := fun _ => none, backward := fun _ => none }
    current := 0, flags := fun _ => false, log := [] }

/-- The assignments of `__init__`, in order (flow_stability.py:132-136). -/
def initOps (net tStart tStop timeScale timeDirection : Option (Val N F)) :
    List (Name × Option (Val N F)) :=
  [("temporal_network", net), ("t_start", tStart), ("t_stop", tStop),
   ("time_scale", timeScale), ("time_direction", timeDirection)]

/-- Run assignments until one raises. -/
def assignAll (w : FWorld N F) : List (Name × Option (Val N F)) → Except Exc (FWorld N F)
  | [] => .ok w
  | (p, v) :: rest => match assignNamed desc code p v w with
    | (some e, _) => .error e
    | (none, w') => assignAll w' rest

/-- `FlowStability(...)` (flow_stability.py:107-139): an exception of a setter leaves
no instance. -/
def construct (net tStart tStop timeScale timeDirection : Option (Val N F)) :
    Except Exc (FWorld N F) :=
  assignAll blank (initOps net tStart tStop timeScale timeDirection)

/-- The instance after a history of user actions. -/
def runF (x : Ext N F A) (w : FWorld N F) (ops : List (FOp N F A)) : FWorld N F :=
  run desc code w (ops.map (FOp.toOp x))

end Verif.FlowStability
