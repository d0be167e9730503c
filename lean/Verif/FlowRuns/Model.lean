import Verif.Louvain.Model
import Verif.Flow.Model

/-!
# Model of runs of the Louvain algorithm that may be stopped

`BaseClustering.find_louvain_clustering` and `Clustering.find_louvain_clustering`
(`src/flowstab/network_clustering.py:888-992, 1413-1421, 1452-1477`) as the list of the writes they
make to the object, with the progress saved on request, and
`FlowIntegralClustering.find_louvain_clustering` (`2070-2149`) with its two dictionaries, for
dense matrices and every index.

A run may be stopped (interrupt, exception of a signal handler) between two of its writes.  The
writes are those of the attributes; a stop in the middle of `remove_empty_clusters` of the object's
own partition, which rewrites the same values, is not modelled.  Random choices are the schedule
`Sched` of `Verif.Louvain.Model`, one per call.  Not modelled: messages.
-/

namespace Verif.FlowRuns

open Verif.Partition Verif.Louvain

variable {K : Type} [Field K] [LinearOrder K] [IsStrictOrderedRing K]

/-- A `Clustering` object (network_clustering.py:337-428, 1103-1114): size, matrices, the
attributes `source_part` and `partition`, and the pairs of elements of `partition_progress` and
`stability_progress` (1413-1421; missing lists are empty). -/
structure CluObj (K : Type) where
  n : Nat
  T : Nat → Nat → K
  S : Nat → Nat → K
  part : Part
  shown : Part
  progress : List (Part × K)

/-- The object that `Verif.Louvain.Model` works on: all methods used by the runs and
`compute_stability` read `source_part` (network_clustering.py:1139-1140, 1372-1373, 1433-1435). -/
def CluObj.clu (o : CluObj K) : Clu K := ⟨o.n, o.T, o.S, o.part⟩

/-- What `compute_stability()` of the object returns (network_clustering.py:1117-1156). -/
def CluObj.stab (o : CluObj K) : K := stability o.S o.part

/-- A new object: `self.partition = self.source_part` (network_clustering.py:1112-1114). -/
def CluObj.new (c : Clu K) : CluObj K := ⟨c.n, c.T, c.S, c.part, c.part, []⟩

/-- The writes of a run to the object. -/
inductive Write where
  /-- `self.source_part = ...` (network_clustering.py:1441-1450) -/
  | setPart (p : Part)
  /-- `_save_progress` (network_clustering.py:1413-1421): copy of the partition and stability -/
  | save
  /-- `self.partition = self.source_part` (network_clustering.py:1471) -/
  | finish

/-- Effect of a write. -/
def CluObj.write (o : CluObj K) : Write → CluObj K
  | .setPart p => { o with part := p }
  | .save => { o with progress := o.progress ++ [(o.part, o.stab)] }
  | .finish => { o with shown := o.part }

/-- Effect of several writes. -/
def CluObj.writes (o : CluObj K) (ws : List Write) : CluObj K := ws.foldl CluObj.write o

/-- `if save_progress: self._save_progress()` (network_clustering.py:908-909, 969-970). -/
def saveIf (save : Bool) : List Write := if save then [.save] else []

/-- The `while` loop (network_clustering.py:925-990): its writes, and the value returned or the
exception.  The variables are those of `Verif.Louvain.metaLoop`. -/
def metaWrites (sc : Sched) (par : Params K) (save : Bool) (T S : Nat → Nat → K) :
    (steps : Nat) → (nMetaLoop : Nat) → (delta : K) → (stop : Bool) → (self : Part) → (mc : Clu K) →
    List Write × Except Err Nat
  | 0, _, _, _, _, _ => ([], .error .outOfSteps)
  | steps + 1, nMetaLoop, delta, stop, self, mc =>
    if delta ≤ par.thr ∨ stop = true ∨ par.nMeta < nMetaLoop then ([], .ok nMetaLoop)
    else
      let k := nMetaLoop + 1
      match moveNodes sc k par.thr par.nSub mc (par.nSub + 1) with
      | .error e => ([], .error e)
      | .ok (d, _, mp) =>
        match updatePart self mp with
        | .error e => ([], .error e)
        | .ok self' =>
          if (∀ c ∈ self'.clusters, c.card = 1) ∨ par.nMeta < k ∨ d ≤ par.thr then
            let r := metaWrites sc par save T S steps k d true self' { mc with part := removeEmpty mp }
            (.setPart self' :: (saveIf save ++ r.1), r.2)
          else
            match aggregate T S self' with
            | .error e => ([.setPart self'], .error e)
            | .ok mc' =>
              let r := metaWrites sc par save T S steps k d false self' mc'
              (.setPart self' :: (saveIf save ++ r.1), r.2)

/-- `BaseClustering.find_louvain_clustering` (network_clustering.py:888-992). -/
def baseWrites (sc : Sched) (par : Params K) (save : Bool) (c : Clu K) : List Write × Except Err Nat :=
  if c.n = 0 then (saveIf save, .error .valueError)
  else if sIsZero c.n c.S then
    match mk' c.n (.clusterList [Finset.range c.n]) false with
    | .error e => (saveIf save, .error e)
    | .ok p => (saveIf save ++ [.setPart p], .ok 0)
  else
    match mkClu c.n c.T c.S (.clusterList c.part.clusters) with
    | .error e => (saveIf save, .error e)
    | .ok mc =>
      let r := metaWrites sc par save c.T c.S (par.nMeta + 3) 0 1 false c.part mc
      (saveIf save ++ r.1, r.2)

/-- `Clustering.find_louvain_clustering` (network_clustering.py:1452-1477). -/
def runWrites (sc : Sched) (par : Params K) (save : Bool) (c : Clu K) : List Write × Except Err Nat :=
  match baseWrites sc par save c with
  | (ws, .ok k) => (ws ++ [.finish], .ok k)
  | (ws, .error e) => (ws, .error e)

/-- How a call ends: with a value (`None` is `none`), with an exception, or stopped. -/
inductive Outcome where
  | returned (v : Option Nat)
  | raised (e : Err)
  | indexError
  | stopped
deriving DecidableEq

/-- A call of `find_louvain_clustering` of a `Clustering`, stopped after some of its writes if
`stop` is given. -/
def CluObj.find (o : CluObj K) (sc : Sched) (par : Params K) (save : Bool) (stop : Option Nat) :
    CluObj K × Outcome :=
  let r := runWrites sc par save o.clu
  match stop with
  | some j => (o.writes (r.1.take j), .stopped)
  | none =>
    match r.2 with
    | .ok k => (o.writes r.1, .returned (some k))
    | .error e => (o.writes r.1, .raised e)

/-- Where a call of `FlowIntegralClustering.find_louvain_clustering` is stopped: before the new
clustering is stored, during its run, or after the run and before its partition is stored
(network_clustering.py:2120-2147). -/
inductive Stop where
  | beforeStore
  | during (j : Nat)
  | beforePartition

/-- Arguments of `FlowIntegralClustering.find_louvain_clustering`
(network_clustering.py:2070-2081), the random choices of the run, and where it is stopped. -/
structure Call (K : Type) where
  k : Int
  arg : Arg
  thr : Option K
  par : Params K
  save : Bool
  sc : Sched
  stop : Option Stop

/-- A `FlowIntegralClustering` with dense matrices: number of nodes, what the constructor sets, and
the dictionaries `clustering` and `partition` (network_clustering.py:1802-1935). -/
structure FObj (K : Type) where
  n : Nat
  obj : Flow.Obj K
  clustering : List (Int × CluObj K)
  partition : List (Int × Part)

/-- `T_list[_k_integral_grid[k+1]-1]` and `I_list[k]` for any Python index
(network_clustering.py:2126-2127). -/
def inputAt (o : Flow.Obj K) (k : Int) : Option ((Nat → Nat → K) × (Nat → Nat → K)) :=
  match pyIndex o.kGrid.length (k + 1) with
  | none => none
  | some g =>
    match o.kGrid[g]? with
    | none => none
    | some m =>
      match pyIndex o.tList.length ((m : Int) - 1) with
      | none => none
      | some t =>
        match o.tList[t]?, pyIndex o.iList.length k with
        | some T, some i =>
          match o.iList[i]? with
          | some S => some (T, S)
          | none => none
        | _, _ => none

/-- `self._S[np.where(np.abs(S)<S_threshold)] = 0` (network_clustering.py:396-399). -/
def cut (thr : Option K) (S : Nat → Nat → K) : Nat → Nat → K :=
  match thr with
  | none => S
  | some t => fun i j => if |S i j| < t then 0 else S i j

/-- `dict[k] = v`. -/
def setItem {V : Type} (d : List (Int × V)) (k : Int) (v : V) : List (Int × V) := (k, v) :: d

/-- `FlowIntegralClustering.find_louvain_clustering` (network_clustering.py:2120-2149). -/
def FObj.call (f : FObj K) (c : Call K) : FObj K × Outcome :=
  match f.clustering.lookup c.k with
  | some _ => (f, .returned none)
  | none =>
    match inputAt f.obj c.k with
    | none => (f, .indexError)
    | some (T, S) =>
      match mkClu f.n T (cut c.thr S) c.arg with
      | .error e => (f, .raised e)
      | .ok clu =>
        let o := CluObj.new clu
        match c.stop with
        | some .beforeStore => (f, .stopped)
        | some (.during j) =>
          ({ f with clustering := setItem f.clustering c.k (o.find c.sc c.par c.save (some j)).1 }, .stopped)
        | some .beforePartition =>
          ({ f with clustering := setItem f.clustering c.k (o.find c.sc c.par c.save none).1 }, .stopped)
        | none =>
          match o.find c.sc c.par c.save none with
          | (o', .returned v) =>
            ({ f with clustering := setItem f.clustering c.k o',
                      partition := setItem f.partition c.k o'.shown }, .returned v)
          | (o', r) => ({ f with clustering := setItem f.clustering c.k o' }, r)

/-- The object after a list of calls. -/
def FObj.session (f : FObj K) (cs : List (Call K)) : FObj K := cs.foldl (fun f c => (f.call c).1) f

/-- A new object (network_clustering.py:1932-1935). -/
def FObj.new (n : Nat) (o : Flow.Obj K) : FObj K := ⟨n, o, [], []⟩

end Verif.FlowRuns
