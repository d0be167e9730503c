import Verif.Flow.Model

/-!
# Model of `run_cov_integrals`

`src/flowstab/scripts/run_cov_integrals.py:238-252` (grid) and `256-700` (`load_trans_mat`,
`worker`).  The worker of one starting point and one rate, in either direction of time.  It reads
the files of `run_laplacians_transmats` (`Cfg.slices`) and reads and writes the files of its
integrals (`Disk`).  The names of these files contain the rate, the starting point and the kind
(expm or linear), so a disk is the set of files of one rate and one starting point; the direction of
time is not part of the names.  The worker is modelled with the list of its writes, in order: a
crash keeps a beginning of the list.

Numbers are exact and nothing is trimmed: `tol = 0`, `integral_rtol = None`.  Not modelled:
messages, `.gz` variants of the files, wrong formats, several workers writing at the same time.
-/

set_option linter.dupNamespace false

namespace Verif.Scripts

open Verif.Trans Verif.Autocov Verif.Flow

variable {K : Type} [Field K] [LinearOrder K] [IsStrictOrderedRing K]

/-- Matrices from the exponential or from the linear approximation. -/
inductive Kind
  | expm
  | lin
  deriving DecidableEq

/-- What `run_laplacians_transmats` saved for an interval: the inter-event matrices, in time
order, each with the difference of its times (run_cov_integrals.py:510-518), the difference
`|t_stop - t_start|` of the bounds (568, 300), and the transition matrices of the interval, forward and
reversed (286-291). -/
structure Slice (K : Type) where
  inter : List (Mat K × K)
  span : K
  forw : Mat K
  back : Mat K

/-- Content of a file of an integral (run_cov_integrals.py:647-649). -/
structure Saved (K : Type) where
  itpt : Mat K
  time : K

/-- Content of a temporary file (run_cov_integrals.py:576-581). -/
structure Temp (K : Type) where
  itpt : Mat K
  last : Nat
  time : K
  T : Mat K

/-- A file, either complete or cut off when the process was stopped while writing it.  Reading a
file that is cut off is an exception. -/
inductive File (V : Type)
  | whole (v : V)
  | torn

/-- The files of one rate and starting point: integrals by kind and end point, temporary files by
the number in their name. -/
structure Disk (K : Type) where
  integral : Kind → Nat → Option (File (Saved K))
  temp : Nat → Option (File (Temp K))

/-- No files. -/
def Disk.empty : Disk K := ⟨fun _ _ => none, fun _ => none⟩

/-- One call of `pd.to_pickle`. -/
inductive Write (K : Type)
  | integral (kind : Kind) (stop : Nat) (v : Saved K)
  | temp (key : Nat) (v : Temp K)

/-- The disk after a write. -/
def Disk.write (d : Disk K) : Write K → Disk K
  | .integral kind stop v => { d with
      integral := fun k s => if k = kind ∧ s = stop then some (.whole v) else d.integral k s }
  | .temp key v => { d with temp := fun j => if j = key then some (.whole v) else d.temp j }

/-- The disk after a write that was cut off. -/
def Disk.tear (d : Disk K) : Write K → Disk K
  | .integral kind stop _ => { d with
      integral := fun k s => if k = kind ∧ s = stop then some .torn else d.integral k s }
  | .temp key _ => { d with temp := fun j => if j = key then some .torn else d.temp j }

/-- Arguments of the script, the environment and the saved intervals. -/
structure Cfg (K : Type) where
  n : Nat
  /-- `sparse_dot_mkl` is installed -/
  mkl : Bool
  sqrt : K → K
  /-- `use_expm_transmats`, `use_lin_transmats` -/
  use : Kind → Bool
  saveIntermediate : Bool
  onlyOne : Bool
  allInds : List Nat
  indStart : Nat
  slices : Kind → Nat → Option (Slice K)

/-- Exceptions. -/
inductive CovErr
  /-- index out of range -/
  | index
  /-- no such file -/
  | missing
  /-- the file cannot be read -/
  | unpickle
  | assertion
  | notImplemented
  deriving DecidableEq

/-- `all_inds` (run_cov_integrals.py:240-252): `range(0, num+1, int_length)`; a step of zero is an
exception. -/
def gridInds (num : Nat) (intLength : Option Nat) (numPoints : Nat) : Option (List Nat) :=
  let len := intLength.getD (num / numPoints)
  if len = 0 then none else some ((List.range (num / len + 1)).map fun i => i * len)

/-- `int_stops` (run_cov_integrals.py:346-355).  Backward from the first index, Python's index -1 is the
last element. -/
def intStops (allInds : List Nat) (indStart : Nat) (onlyOne reverse : Bool) : Except CovErr (List Nat) :=
  if reverse then
    let l := if indStart = 0 then allInds.reverse else (allInds.take indStart).reverse
    if onlyOne then match l with
      | [] => .error .index
      | s :: _ => .ok [s]
    else .ok l
  else if onlyOne then match allInds[indStart + 1]? with
    | none => .error .index
    | some s => .ok [s]
  else .ok (allInds.drop (indStart + 1))

/-- `range(a, b, 1)`, backward `range(a-1, b-1, -1)` (run_cov_integrals.py:395-398, 489-492). -/
def kRange (reverse : Bool) (a b : Nat) : List Nat :=
  if reverse then (List.range' b (a - b)).reverse else List.range' a (b - a)

/-- `load_trans_mat` (run_cov_integrals.py:256-304). -/
def loadTrans (cfg : Cfg K) (kind : Kind) (reverse : Bool) (ks : List Nat) : Except CovErr (Mat K × K) :=
  ks.foldlM (fun s k =>
    match cfg.slices kind k with
    | none => .error .missing
    | some sl => .ok (rowNormalize cfg.n (mul cfg.n s.1 (rowNormalize cfg.n (if reverse then sl.back else sl.forw))),
        s.2 + sl.span)) (eye, 0)

/-- `ITPT`, `Tk` and `integration_time`. -/
structure Integ (K : Type) where
  itpt : Mat K
  T : Mat K
  time : K

/-- Before the first interval (run_cov_integrals.py:331-338, 358). -/
def Integ.init : Integ K := ⟨fun _ _ => 0, eye, 0⟩

/-- Change the value of one kind. -/
def setKind {V : Type} (f : Kind → V) (kind : Kind) (v : V) : Kind → V := fun k => if k = kind then v else f k

/-- What is known after the search for existing files. -/
structure Plan (K : Type) where
  st : Kind → Integ K
  from_ : Nat
  stops : List Nat
  all : Kind → Bool
  /-- `last_expm_exist + 1`, `last_lin_exist + 1` -/
  found : Kind → Nat

/-- Number of files of the longest continuous stretch of existing integrals
(run_cov_integrals.py:371-377). -/
def existing (d : Disk K) (kind : Kind) (stops : List Nat) : Nat :=
  (stops.takeWhile fun s => (d.integral kind s).isSome).length

/-- The search for existing integrals of one kind (run_cov_integrals.py:370-412, 414-452). -/
def resume (cfg : Cfg K) (d : Disk K) (reverse : Bool) (start : Nat) (p : Plan K) (kind : Kind) : Except CovErr (Plan K) :=
  if !cfg.use kind then .ok p else
  let m := existing d kind p.stops
  if m = 0 then .ok p
  else if m = p.stops.length then .ok { p with all := setKind p.all kind true, found := setKind p.found kind m }
  else
    let stop := p.stops.getD (m - 1) 0
    match d.integral kind stop with
    | some (.whole v) =>
      match loadTrans cfg kind reverse (kRange reverse start stop) with
      | .error e => .error e
      | .ok (T, t) =>
        if cfg.use .lin = cfg.use .expm then .error .assertion
        else .ok ⟨setKind p.st kind ⟨v.itpt, T, t⟩, stop, p.stops.drop m, p.all, setKind p.found kind m⟩
    | _ => .error .unpickle

/-- One inter-event matrix (run_cov_integrals.py:522-561). -/
def addStep (cfg : Cfg K) (s : Integ K) (e : Mat K × K) : Integ K :=
  let T := rowNormalize cfg.n (mul cfg.n s.T (rowNormalize cfg.n e.1))
  let q := massAt cfg.n (uniform cfg.n) T
  let B : Mat K := fun i k => T i k * cfg.sqrt (invOrOne q k)
  ⟨fun i j => s.itpt i j + (if cfg.mkl && decide (j < i) then 0 else (∑ k ∈ Finset.range cfg.n, B i k * B j k) * e.2),
    T, s.time⟩

/-- All inter-event matrices of an interval (run_cov_integrals.py:508-568, 587-641). -/
def addSlice (cfg : Cfg K) (reverse : Bool) (s : Integ K) (sl : Slice K) : Integ K :=
  let s' := (if reverse then sl.inter.reverse else sl.inter).foldl (addStep cfg) s
  ⟨s'.itpt, s'.T, s'.time + sl.span⟩

/-- A worker that is running: the integrals, the disk, the writes so far, and the exception that
stopped it. -/
structure Run (K : Type) where
  st : Kind → Integ K
  disk : Disk K
  log : List (Write K)
  failed : Option CovErr

/-- A write. -/
def Run.emit (r : Run K) (w : Write K) : Run K := { r with disk := r.disk.write w, log := r.log ++ [w] }

/-- The computation of an interval (run_cov_integrals.py:508-583, 585-641). -/
def Run.compute (cfg : Cfg K) (reverse : Bool) (kind : Kind) (k : Nat) (r : Run K) : Run K :=
  match cfg.slices kind k with
  | none => { r with failed := some .missing }
  | some sl =>
    let s := addSlice cfg reverse (r.st kind) sl
    let r := { r with st := setKind r.st kind s }
    if kind = .expm ∧ cfg.saveIntermediate = true ∧ 0 < s.time then r.emit (.temp (k + 1) ⟨s.itpt, k, s.time, s.T⟩) else r

/-- One interval for one kind (run_cov_integrals.py:494-641): a temporary file is used if there is
one; there are none for the linear kind. -/
def Run.interval (cfg : Cfg K) (reverse : Bool) (kind : Kind) (k : Nat) (r : Run K) : Run K :=
  if r.failed.isSome then r
  else if kind = .expm ∧ cfg.saveIntermediate = true then
    match r.disk.temp (k + 1) with
    | none => r.compute cfg reverse kind k
    | some .torn => { r with failed := some .unpickle }
    | some (.whole v) =>
      if v.last = k then { r with st := setKind r.st kind ⟨v.itpt, v.T, v.time⟩ }
      else { r with failed := some .assertion }
  else r.compute cfg reverse kind k

/-- The integral is saved, only its upper triangle, if some time was integrated
(run_cov_integrals.py:644-672). -/
def Run.save (kind : Kind) (stop : Nat) (r : Run K) : Run K :=
  if r.failed.isSome then r
  else if 0 < (r.st kind).time then
    r.emit (.integral kind stop ⟨fun i j => if i ≤ j then (r.st kind).itpt i j else 0, (r.st kind).time⟩)
  else r

/-- The intervals up to the next end point, then the files of the end point
(run_cov_integrals.py:481-677). -/
def Run.upTo (cfg : Cfg K) (reverse : Bool) (kinds : List Kind) (from_ stop : Nat) (r : Run K) : Run K :=
  let r := (kRange reverse from_ stop).foldl (fun r k => kinds.foldl (fun r kind => r.interval cfg reverse kind k) r) r
  kinds.foldl (fun r kind => r.save kind stop) r

/-- The loop over the end points (run_cov_integrals.py:480-679). -/
def Run.loop (cfg : Cfg K) (reverse : Bool) (kinds : List Kind) : Nat → List Nat → Run K → Run K
  | _, [], r => r
  | from_, stop :: rest, r => Run.loop cfg reverse kinds stop rest (r.upTo cfg reverse kinds from_ stop)

/-- `worker` (run_cov_integrals.py:307-700) on a disk. -/
def worker (cfg : Cfg K) (reverse : Bool) (d : Disk K) : Run K :=
  let fail : CovErr → Run K := fun e => ⟨fun _ => .init, d, [], some e⟩
  match cfg.allInds[cfg.indStart]? with
  | none => fail .index
  | some start =>
    match intStops cfg.allInds cfg.indStart cfg.onlyOne reverse with
    | .error e => fail e
    | .ok stops =>
      match [Kind.expm, Kind.lin].foldlM (resume cfg d reverse start)
          ⟨fun _ => .init, start, stops, fun _ => false, fun _ => 0⟩ with
      | .error e => fail e
      | .ok p =>
        let kinds := [Kind.expm, Kind.lin].filter fun k => cfg.use k && !p.all k
        if kinds.length = 2 ∧ 0 < p.found .expm ∧ 2 < p.found .lin then fail .notImplemented
        else Run.loop cfg reverse kinds p.from_ p.stops ⟨p.st, d, [], none⟩

end Verif.Scripts
