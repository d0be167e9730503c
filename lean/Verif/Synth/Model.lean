import Mathlib.Algebra.Order.Field.Basic
import Mathlib.Data.List.Basic
import Mathlib.Algebra.BigOperators.Group.Finset.Basic
import Mathlib.Data.List.Dedup

/-!
# Model of `SynthTempNetwork`

`src/flowstab/synth_temp_network.py`.  Random numbers come from a tape (`Draws`) that is read with
a counter, so that a theorem for every tape is a theorem for every seed.  Numbers are exact.  Not
modelled: messages, the states saved every `dt`, `event_mapper_activ`, `event_mapper_inter` and
`is_canceled` (nothing reads the former two, nothing sets the latter).
-/

set_option linter.dupNamespace false

namespace Verif.Synth

variable {K : Type} [Field K] [LinearOrder K] [IsStrictOrderedRing K]

/-- Exceptions, and a loop that cannot end. -/
inductive Err
  /-- scale 0 of a distribution (lines 181, 200), probabilities rejected by numpy -/
  | valueError
  /-- a group without individuals (lines 464, 496) -/
  | keyError
  /-- unknown `next_event_method` (line 508) -/
  | notImplemented
  /-- `while new_partner in un_partners` without a partner left -/
  | diverges
  deriving DecidableEq

/-- `next_event_method` with its parameters. -/
inductive Method (K : Type)
  | uniform
  | withinGroup
  /-- `inter_group_probs` -/
  | block (probs : Nat → Nat → K)
  /-- `block_prob_mod_func` -/
  | blockMod (f : K → Nat → Nat → K)
  | other

/-- Arguments of the constructor (lines 255-259).  `ids` are the IDs of the individuals, in the
order of the list; `group` are the groups, by position in that list. -/
structure Sim (K : Type) where
  ids : List Int
  group : Nat → Int
  tStart : K
  tEnd : K
  /-- `num_interactions_per_activation` -/
  m : Nat
  method : Method K

/-- The random numbers: times to the next activation and durations (`none`: the scale is 0), which
may depend on the individual and on the time, groups (depending on their probabilities), and partners
(depending on the allowed ones). -/
structure Draws (K : Type) where
  activ : Nat → Int → K → Option K
  inter : Nat → Int → K → Option K
  targetGroup : Nat → (Nat → K) → Nat
  pick : Nat → List Int → Int

/-- Entries of the queue (lines 355-378): an activation if there is no partner, otherwise the end
of an interaction. -/
structure Ev (K : Type) where
  time : K
  id : Int
  partner : Option Int
  deriving DecidableEq

/-- An element of the four lists `indiv_sources`, `indiv_targets`, `start_times`, `end_times`,
which are always extended together (lines 606-609). -/
structure Contact (K : Type) where
  src : Int
  tgt : Int
  start : K
  stop : K
  deriving DecidableEq

/-- State of the simulation.  `A` and `last` are the matrices `_A` and `_last_times`; `count`
counts the random numbers; `log` is not in the code: it records every interaction when it begins,
with the end put into the queue. -/
structure St (K : Type) where
  t : K
  A : Nat → Nat → Bool
  last : Nat → Nat → K
  queue : List (Ev K)
  events : List (Contact K)
  count : Nat
  log : List (Contact K)

/-- Number of individuals. -/
def Sim.n (s : Sim K) : Nat := s.ids.length

/-- Python index: negative numbers count from the end. -/
def wrap (n : Nat) (i : Int) : Nat := if i < 0 then (i + n).toNat else i.toNat

/-- `Ngroups` (line 289). -/
def Sim.nGroups (s : Sim K) : Nat := ((List.range s.n).map s.group).dedup.length

/-- The checks of the constructor (lines 270-293). -/
def Sim.accepted (s : Sim K) : Bool :=
  s.ids.all (fun i => decide (i < s.n)) && decide s.ids.Nodup &&
    (List.range s.n).all fun k => decide (s.group k < s.nGroups)

/-- Order of the entries of the queue: pairs and lists are compared from the left, and
`"activation" < "interaction"`. -/
def Ev.before (a b : Ev K) : Bool :=
  if a.time = b.time then
    if a.id = b.id then
      match a.partner, b.partner with
      | none, _ => true
      | some _, none => false
      | some p, some q => decide (p ≤ q)
    else decide (a.id < b.id)
  else decide (a.time < b.time)

/-- `queue.get_nowait()`: the first entry in that order. -/
def popMin : List (Ev K) → Option (Ev K × List (Ev K))
  | [] => none
  | e :: r =>
    match popMin r with
    | none => some (e, [])
    | some (e', r') => if e.before e' then some (e, r) else some (e', e :: r')

/-- `put_event` of an activation (lines 387-398). -/
def putActivation (d : Draws K) (i : Int) (s : St K) : Except Err (St K) :=
  match d.activ s.count i s.t with
  | none => .error .valueError
  | some x => .ok { s with queue := ⟨s.t + x, i, none⟩ :: s.queue, count := s.count + 1 }

/-- `un_partners` (lines 419-421): the individual and the columns of its row of `_A`. -/
def unPartners (n : Nat) (s : St K) (i : Int) : List Int :=
  i :: ((List.range n).filter fun c => s.A (wrap n i) c).map fun c : Nat => (c : Int)

/-- `group_to_ids[g]` (lines 296-297): positions of the individuals of the group. -/
def members (sim : Sim K) (g : Int) : List Int :=
  ((List.range sim.n).filter fun k => decide (sim.group k = g)).map fun k : Nat => (k : Int)

/-- The loop that draws until a partner is allowed (lines 428-431): it can only return an allowed
one.  That it returns (with probability one, if there is an allowed one) is assumed. -/
def drawPartner (d : Draws K) (potential un : List Int) (s : St K) : Except Err (Option Int × St K) :=
  match potential.filter fun q => decide (q ∉ un) with
  | [] => .error .diverges
  | c :: cs => .ok (some (d.pick s.count (c :: cs)), { s with count := s.count + 1 })

/-- Equality of the sets of two lists. -/
def sameSet (a b : List Int) : Bool := a.all (fun x => decide (x ∈ b)) && b.all fun x => decide (x ∈ a)

/-- `np.random.choice(np.arange(Ngroups), p=p)` and the choice in that group (lines 454-475,
486-506).  The tolerance of numpy for the sum of the probabilities is not modelled. -/
def drawFromBlock (sim : Sim K) (d : Draws K) (p : Nat → K) (i : Int) (s : St K) : Except Err (Option Int × St K) :=
  if (List.range sim.nGroups).any (fun g => decide (p g < 0)) || decide (∑ g ∈ Finset.range sim.nGroups, p g ≠ 1) then
    .error .valueError
  else
    let g := d.targetGroup s.count p
    let s := { s with count := s.count + 1 }
    let un := unPartners sim.n s i
    match members sim g with
    | [] => .error .keyError
    | c :: cs =>
      if (i :: c :: cs).all (fun x => decide (x ∈ un)) then .ok (none, s) else drawPartner d (c :: cs) un s

/-- `get_new_partner` (lines 414-511).  A row of zeros of `inter_group_probs` is normalised to
`nan` by the constructor (lines 326-327); the test `p.sum() == 0` is then false and numpy rejects the
probabilities. -/
def newPartner (sim : Sim K) (d : Draws K) (i : Int) (s : St K) : Except Err (Option Int × St K) :=
  match sim.method with
  | .uniform =>
    let un := unPartners sim.n s i
    if sameSet sim.ids un then .ok (none, s) else drawPartner d sim.ids un s
  | .withinGroup =>
    let un := unPartners sim.n s i
    let potential := members sim (sim.group (wrap sim.n i))
    if sameSet potential un then .ok (none, s) else drawPartner d potential un s
  | .block probs =>
    let row := probs (sim.group (wrap sim.n i)).toNat
    let total := ∑ g ∈ Finset.range sim.nGroups, row g
    if total = 0 then .error .valueError else drawFromBlock sim d (fun g => row g / total) i s
  | .blockMod f =>
    let row := f s.t (sim.group (wrap sim.n i)).toNat
    if ∑ g ∈ Finset.range sim.nGroups, row g = 0 then .ok (none, s) else drawFromBlock sim d row i s
  | .other => .error .notImplemented

/-- Set an entry of a matrix. -/
def setAt {α : Type} (M : Nat → Nat → α) (i j : Nat) (v : α) : Nat → Nat → α :=
  fun a b => if a = i ∧ b = j then v else M a b

/-- The body of the loop over the interactions of an activation (lines 569-588), with
`put_event` of an interaction (lines 400-412). -/
def interact (sim : Sim K) (d : Draws K) (i : Int) (s : St K) : Except Err (St K) :=
  match newPartner sim d i s with
  | .error e => .error e
  | .ok (none, s) => .ok s
  | .ok (some q, s) =>
    match d.inter s.count i s.t with
    | none => .error .valueError
    | some x => .ok { s with
        A := setAt s.A (wrap sim.n i) (wrap sim.n q) true
        last := setAt s.last (wrap sim.n i) (wrap sim.n q) s.t
        queue := ⟨s.t + x, i, some q⟩ :: s.queue
        count := s.count + 1
        log := s.log ++ [⟨i, q, s.t, s.t + x⟩] }

/-- `for _ in range(num_interactions_per_activation)`. -/
def interactions (sim : Sim K) (d : Draws K) (i : Int) : Nat → St K → Except Err (St K)
  | 0, s => .ok s
  | k + 1, s =>
    match interact sim d i s with
    | .error e => .error e
    | .ok s => interactions sim d i k s

/-- The end of an interaction (lines 590-609). -/
def finish (sim : Sim K) (i q : Int) (s : St K) : St K :=
  { s with
    A := setAt s.A (wrap sim.n i) (wrap sim.n q) false
    last := setAt s.last (wrap sim.n i) (wrap sim.n q) 0
    events := s.events ++ [⟨i, q, s.last (wrap sim.n i) (wrap sim.n q), s.t⟩] }

/-- The loop `while self.t < self.t_end` is over (lines 549, 628-630). -/
def done (sim : Sim K) (s : St K) : Bool := decide (sim.tEnd ≤ s.t) || s.queue.isEmpty

/-- One pass of the loop (lines 550-626), if it is not over. -/
def step (sim : Sim K) (d : Draws K) (s : St K) : Except Err (St K) :=
  if sim.tEnd ≤ s.t then .ok s
  else
    match popMin s.queue with
    | none => .ok s
    | some (e, r) =>
      let s := { s with t := e.time, queue := r }
      match e.partner with
      | none =>
        match putActivation d e.id s with
        | .error e => .error e
        | .ok s => interactions sim d e.id sim.m s
      | some q => .ok (finish sim e.id q s)

/-- The object after its construction, at the start time (lines 331-347, 535). -/
def fresh (sim : Sim K) : St K :=
  { t := sim.tStart, A := fun _ _ => false, last := fun _ _ => 0, queue := [], events := [], count := 0, log := [] }

/-- `initialize_events` (lines 514-518). -/
def initEvents (d : Draws K) : List Int → St K → Except Err (St K)
  | [], s => .ok s
  | i :: r, s =>
    match putActivation d i s with
    | .error e => .error e
    | .ok s => initEvents d r s

/-- `k` passes of the loop. -/
def passes (sim : Sim K) (d : Draws K) : Nat → St K → Except Err (St K)
  | 0, s => .ok s
  | k + 1, s =>
    match step sim d s with
    | .error e => .error e
    | .ok s => passes sim d k s

/-- `run`, from a given state of the object, stopped after `k` passes at the latest. -/
def run (sim : Sim K) (d : Draws K) (k : Nat) (s : St K) : Except Err (St K) :=
  match initEvents d sim.ids { s with t := sim.tStart } with
  | .error e => .error e
  | .ok s => passes sim d k s

end Verif.Synth
