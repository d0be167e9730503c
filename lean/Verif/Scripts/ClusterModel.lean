import Mathlib.Algebra.Order.Field.Basic
import Mathlib.Data.Finset.Sort
import Mathlib.Data.List.Sort
import Mathlib.Data.List.Lex
import Mathlib.Order.Lex

/-!
Model of `worker` in scripts/run_clusterings.py: what it reads from and writes to the disk, and how the
repeated clusterings are summarised.

A clustering found by one repetition is a list of finite sets of node numbers.  The clusterings
themselves, the seeds and the choice of pairs are random: they are arguments (`Rand`).  The variation of
information of two clusterings (`norm_var_information`, modelled in Verif.Info) is a parameter here.
Times and printed messages are not modelled.
-/

set_option linter.unusedSectionVars false

namespace Verif.Scripts.Cluster

variable {K : Type} [Field K] [LinearOrder K] [IsStrictOrderedRing K]

abbrev Clusters := List (Finset Nat)

/-- What one repetition returns (run_clusterings.py:546, 593): clusters, stability, seed. -/
structure Draw (K : Type) where
  clusters : Clusters
  stab : K
  seed : Nat

/-- `tuple(sorted([tuple(sorted(c)) for c in clust]))` (run_clusterings.py:834-835). -/
def canon (c : Clusters) : List (List Nat) := (c.map fun s => s.sort (· ≤ ·)).insertionSort (· ≤ ·)

/-- One more occurrence of a key in a `Counter`. -/
def bump {κ : Type} [DecidableEq κ] (x : κ) : List (κ × Nat) → List (κ × Nat)
  | [] => [(x, 1)]
  | (y, k) :: r => if y = x then (y, k + 1) :: r else (y, k) :: bump x r

/-- `Counter(l)`: keys in the order of their first occurrence. -/
def counter {κ : Type} [DecidableEq κ] (l : List κ) : List (κ × Nat) := l.foldl (fun c x => bump x c) []

/-- `np.argmax`: position of the first maximum, for a list that starts with `x`. -/
def argmax : K → List K → Nat
  | _, [] => 0
  | x, y :: r => if x < (y :: r).foldl max y then argmax y r + 1 else 0

/-- `np.mean`; `none` is NaN, the mean of an empty list. -/
def mean (l : List K) : Option K := if l.length = 0 then none else some (l.sum / (l.length : K))

/-- `combinations(l, 2)`. -/
def pairs {α : Type} : List α → List (α × α)
  | [] => []
  | a :: l => l.map (fun b => (a, b)) ++ pairs l

/-- `[s for i,s in enumerate(l) if i in idx]`. -/
def pick {α : Type} (idx : List Nat) (l : List α) : List α :=
  (l.zipIdx.filter fun e => decide (e.2 ∈ idx)).map Prod.fst

/-- Results of the repetitions as they are saved. -/
structure Summary (K : Type) where
  counter : List (List (List Nat) × Nat)
  stabs : List K
  seeds : List Nat
  nvi : Option K
  avgStab : Option K
  avgNclust : Option K
  best : Clusters
  bestStab : K

/-- `tmpres` (run_clusterings.py:847-861). -/
structure Tmp (K : Type) where
  counter : List (List (List Nat) × Nat)
  stabs : List K
  best : Clusters
  bestStab : K

/-- `res` (run_clusterings.py:925-965). -/
structure Res (K : Type) where
  numRepeat : Nat
  dynamic : Option (Summary K)
  static : Option (Summary K)

/-- A file is complete, or the process was killed while it wrote it. -/
inductive File (V : Type)
  | whole (v : V)
  | torn

/-- The two files of a worker. -/
structure Disk (K : Type) where
  tmp : Option (File (Tmp K))
  res : Option (File (Res K))

def Disk.empty : Disk K := ⟨none, none⟩

/-- One `pickle.dump`. -/
inductive Write (K : Type)
  | tmp (v : Tmp K)
  | res (v : Res K)

def Disk.write (d : Disk K) : Write K → Disk K
  | .tmp v => { d with tmp := some (.whole v) }
  | .res v => { d with res := some (.whole v) }

/-- The process is killed during a `pickle.dump`. -/
def Disk.tear (d : Disk K) : Write K → Disk K
  | .tmp _ => { d with tmp := some .torn }
  | .res _ => { d with res := some .torn }

/-- The arguments of the script that matter here (run_clusterings.py:91-200). -/
structure Cfg where
  computeClustering : Bool
  computeStatic : Bool
  saveBefore : Bool
  numRepeat : Nat
  numVarinf : Option Nat

/-- `max_num_varinf_samples` (run_clusterings.py:187). -/
def Cfg.maxSamples (cfg : Cfg) : Nat := cfg.numRepeat * (cfg.numRepeat - 1) / 2

/-- `num_varinf_samples` (run_clusterings.py:188-189). -/
def Cfg.samples (cfg : Cfg) : Nat :=
  match cfg.numVarinf with
  | none => cfg.maxSamples
  | some k => if k > cfg.maxSamples then cfg.maxSamples else k

/-- What the worker finds and draws in one run: the number of nodes of the loaded integral (`none`: the file
cannot be loaded), whether the adjacency matrix exists, the repetitions (`none`: an exception), and
the indices that `np.random.choice` returns. -/
structure Rand (K : Type) where
  nodes : Option Nat
  adjacency : Bool
  draws : Option (List (Draw K))
  choice : List Nat
  staticDraws : Option (List (Draw K))
  staticChoice : List Nat

inductive Err
  | load
  | clustering
  /-- `zip(*[])` cannot be unpacked to three names -/
  | unpack
  | unpickle
  /-- `sym_clusters` is not defined -/
  | name
  deriving DecidableEq

structure Run (K : Type) where
  disk : Disk K
  log : List (Write K)
  failed : Option Err

/-- `best_cluster_sym`, `best_stab_sym` (run_clusterings.py:837-839), for at least one repetition. -/
def bestOf (d : Draw K) (ds : List (Draw K)) : Clusters × K :=
  (((d :: ds).getD (argmax d.stab (ds.map Draw.stab)) d).clusters, (ds.map Draw.stab).foldl max d.stab)

/-- The summary of the repetitions (run_clusterings.py:834-843, 870-899, and 902-920 for the static
network). -/
def summarise (nvi : Clusters → Clusters → Nat → K) (n : Nat) (choice : List Nat) (d : Draw K) (ds : List (Draw K)) :
    Summary K where
  counter := counter ((d :: ds).map fun e => canon e.clusters)
  stabs := (d :: ds).map Draw.stab
  seeds := (d :: ds).map Draw.seed
  nvi := mean ((pick choice (pairs ((d :: ds).map Draw.clusters))).map fun e => nvi e.1 e.2 n)
  avgStab := mean ((d :: ds).map Draw.stab)
  avgNclust := mean ((d :: ds).map fun e => (e.clusters.length : K))
  best := (bestOf d ds).1
  bestStab := (bestOf d ds).2

/-- `zip(*map(…))` unpacked to three names (run_clusterings.py:756-812, 816-829). -/
def unpack (draws : Option (List (Draw K))) : Except Err (Draw K × List (Draw K)) :=
  match draws with
  | none => .error .clustering
  | some [] => .error .unpack
  | some (d :: ds) => .ok (d, ds)

/-- `worker` (run_clusterings.py:647-979) on a disk.  A temporary file makes the worker skip the
clustering, but not the variation of information, which uses the clusterings (run_clusterings.py:745-747,
876): an exception, which is caught. -/
def worker (nvi : Clusters → Clusters → Nat → K) (cfg : Cfg) (r : Rand K) (d : Disk K) : Run K :=
  let fail : Disk K → List (Write K) → Err → Run K := fun d log e => ⟨d, log, some e⟩
  match d.res with
  | some _ => ⟨d, [], none⟩
  | none =>
    match r.nodes with
    | none => fail d [] .load
    | some n =>
      let static := cfg.computeStatic && r.adjacency
      if !(cfg.computeClustering || static) then
        let w := Write.res ⟨cfg.numRepeat, none, none⟩
        ⟨d.write w, [w], none⟩
      else
        match d.tmp with
        | some .torn => fail d [] .unpickle
        | some (.whole _) =>
          if static then
            match unpack r.staticDraws with
            | .error e => fail d [] e
            | .ok _ => fail d [] .name
          else fail d [] .name
        | none =>
          match (if cfg.computeClustering then (unpack r.draws).map some else .ok none) with
          | .error e => fail d [] e
          | .ok dyn =>
            match (if static then (unpack r.staticDraws).map some else .ok none) with
            | .error e => fail d [] e
            | .ok stat =>
              let log := match dyn with
                | none => []
                | some p => if cfg.saveBefore then
                    [Write.tmp ⟨counter ((p.1 :: p.2).map fun e => canon e.clusters), (p.1 :: p.2).map Draw.stab,
                      (bestOf p.1 p.2).1, (bestOf p.1 p.2).2⟩]
                  else []
              let w := Write.res ⟨cfg.numRepeat, dyn.map fun p => summarise nvi n r.choice p.1 p.2,
                stat.map fun p => summarise nvi n r.staticChoice p.1 p.2⟩
              ⟨(log ++ [w]).foldl Disk.write d, log ++ [w], none⟩

end Verif.Scripts.Cluster
