import Verif.Synth.Props

/-!
# Model of individuals, saved states and repeated runs of `SynthTempNetwork`

`src/flowstab/synth_temp_network.py`: the classes `Distro` and `Individual` (lines 31-211), from which
the durations of `Verif.Synth` come, and the states saved by `run` (lines 520-630).  A random number of
`expon.rvs(loc, scale)` is `loc + scale u` with `u` from a tape of values that are not negative; SciPy
refuses a negative scale with a ValueError.
-/

set_option linter.dupNamespace false

namespace Verif.SynthRuns

open Verif.Synth

variable {K : Type} [Field K] [LinearOrder K] [IsStrictOrderedRing K]

/-! ## Individuals -/

/-- Exceptions of the constructors. -/
inductive MakeErr
  /-- ID or group that is no integer (lines 133, 163) -/
  | valueError
  /-- another distribution than `"exponential"` (line 63) -/
  | notImplemented
  deriving DecidableEq, Repr

/-- `Distro` (lines 39-63): default location and scale of an exponential distribution. -/
structure Distro (K : Type) where
  loc : K
  scale : K

/-- `Distro.__init__` (lines 39-63). -/
def makeDistro (loc scale : K) (distType : String) : Except MakeErr (Distro K) :=
  if distType = "exponential" then .ok ⟨loc, scale⟩ else .error .notImplemented

/-- `Distro.draw_val` (lines 65-71) with the number `u` of the tape; `none`: ValueError of SciPy. -/
def Distro.drawVal (d : Distro K) (loc scale : Option K) (u : K) : Option K :=
  if scale.getD d.scale < 0 then none else some (loc.getD d.loc + scale.getD d.scale * u)

/-- `Individual` (lines 74-171).  `interMod` and `activMod` are `inter_distro_mod_func` and
`activ_distro_mod_func`. -/
structure Indiv (K : Type) where
  id : Int
  group : Int
  interDistro : Distro K
  activDistro : Distro K
  interMod : K → K × K
  activMod : K → K × K

/-- Arguments of `Individual` (lines 120-129); `none` for an ID or a group that is no integer, and for
a function that is not given. -/
structure IndivArgs (K : Type) where
  id : Option Int
  interLoc : K
  interScale : K
  interType : String
  interMod : Option (K → K × K)
  activLoc : K
  activScale : K
  activType : String
  activMod : Option (K → K × K)
  group : Option Int

/-- The default values (lines 120-129). -/
def plainArgs (id : Int) (group : Int) : IndivArgs K :=
  ⟨some id, 0, 1, "exponential", none, 0, 5, "exponential", none, some group⟩

/-- The class attributes `all_IDs` and `all_groups` (lines 118-119). -/
structure ClassLists where
  allIDs : List Int
  allGroups : List Int

/-- `Individual.__init__` (lines 120-171): the result and the class attributes afterwards. -/
def makeIndiv (a : IndivArgs K) (c : ClassLists) : Except MakeErr (Indiv K) × ClassLists :=
  match a.id with
  | none => (.error .valueError, c)
  | some id =>
    let c := { c with allIDs := c.allIDs ++ [id] }
    match makeDistro a.interLoc a.interScale a.interType with
    | .error e => (.error e, c)
    | .ok di =>
      match makeDistro a.activLoc a.activScale a.activType with
      | .error e => (.error e, c)
      | .ok da =>
        match a.group with
        | none => (.error .valueError, c)
        | some g =>
          (.ok ⟨id, g, di, da, a.interMod.getD fun _ => (a.interLoc, a.interScale),
              a.activMod.getD fun _ => (a.activLoc, a.activScale)⟩,
            { c with allGroups := c.allGroups ++ [g] })

/-- `draw_inter_duration` and `draw_activ_time` (lines 173-211). -/
def drawTime (d : Distro K) (mod : K → K × K) (time : Option K) (u : K) : Option K :=
  match time with
  | none => d.drawVal none none u
  | some t =>
    if (mod t).2 = 0 then none else d.drawVal (some (mod t).1) (some (mod t).2) u

/-- `SynthTempNetwork(individuals, …)` (lines 255-293). -/
def simOf (inds : List (Indiv K)) (tStart tEnd : K) (m : Nat) (method : Method K) : Sim K :=
  { ids := inds.map (·.id), group := fun k => (inds.map (·.group)).getD k 0, tStart := tStart, tEnd := tEnd, m := m
    method := method }

/-- The times drawn by `put_event` (lines 389, 405): `self.individuals[indiv_id]` is the individual at
that position of the list, and the time is given. -/
def drawsOf (inds : List (Indiv K)) (u : Nat → K) (targetGroup : Nat → (Nat → K) → Nat) (pick : Nat → List Int → Int) :
    Draws K :=
  { activ := fun k i t => (inds[wrap inds.length i]?).bind fun a => drawTime a.activDistro a.activMod (some t) (u k)
    inter := fun k i t => (inds[wrap inds.length i]?).bind fun a => drawTime a.interDistro a.interMod (some t) (u k)
    targetGroup := targetGroup
    pick := pick }

/-! ## Saved states -/

/-- `d[key] = value` for a dictionary with its entries in the order of insertion. -/
def dictSet {α : Type} (d : List (K × α)) (key : K) (value : α) : List (K × α) :=
  if (d.map Prod.fst).contains key then d.map fun e => if e.1 = key then (key, value) else e else d ++ [(key, value)]

/-- A simulation with `all_states`, `saved_states` and `_t_next_bin`. -/
structure Rec (K : Type) where
  st : St K
  all : List (K × (Nat → Nat → Bool))
  saved : List (K × (Nat → Nat → Bool))
  nextBin : K

/-- Arguments `save_all_states`, `save_dt_states` and `dt` of `run` (line 520). -/
structure Opts (K : Type) where
  saveAll : Bool
  saveDt : Bool
  dt : K

/-- Saving after an event (lines 611-626). -/
def record (o : Opts K) (prev : K) (r : Rec K) : Rec K :=
  if prev < r.st.t then
    let r := if o.saveAll then { r with all := dictSet r.all r.st.t r.st.A } else r
    if o.saveDt && decide (r.nextBin ≤ r.st.t) then
      { r with saved := dictSet r.saved r.st.t r.st.A, nextBin := r.nextBin + o.dt }
    else r
  else r

/-- One pass of the loop with the saving (lines 550-626). -/
def stepRec (sim : Sim K) (d : Draws K) (o : Opts K) (r : Rec K) : Except Err (Rec K) :=
  match step sim d r.st with
  | .error e => .error e
  | .ok s => .ok (record o r.st.t { r with st := s })

/-- `k` passes of the loop with the saving. -/
def passesRec (sim : Sim K) (d : Draws K) (o : Opts K) : Nat → Rec K → Except Err (Rec K)
  | 0, r => .ok r
  | k + 1, r =>
    match stepRec sim d o r with
    | .error e => .error e
    | .ok r => passesRec sim d o k r

/-- `run` with the saving (lines 520-630), from a given state of the object, stopped after `k` passes
at the latest. -/
def runRec (sim : Sim K) (d : Draws K) (o : Opts K) (k : Nat) (s : St K) : Except Err (Rec K) :=
  match initEvents d sim.ids { s with t := sim.tStart } with
  | .error e => .error e
  | .ok s => passesRec sim d o k
      { st := s
        all := if o.saveAll then dictSet [] s.t s.A else []
        saved := if o.saveDt then dictSet [] s.t s.A else []
        nextBin := s.t + o.dt }

end Verif.SynthRuns
