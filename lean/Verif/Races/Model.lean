import Verif.Info.Model

/-!
# Model of the threads of the parallel variation of information

`cython_nvi_parallel` (src/flowstab/_cython_fast_funcs.pyx:211-255).  The iterations of the inner loop
are divided between threads that all execute `VI_res[i] -= term` on the same element, outside of the
global lock: each update is a load followed by a store, and those of different threads may come in
any order.  How the iterations are divided is left open (`schedule='static'` gives every thread a block).
The outer loop waits for all threads before it goes on.
-/

set_option linter.dupNamespace false

namespace Verif.Races

variable {K : Type} [Field K]

/-- A thread: the value it has loaded but not yet stored back, and the terms it has to subtract. -/
structure Thread (K : Type) where
  loaded : Option K
  todo : List K

/-- The shared element and the threads. -/
structure State (K : Type) where
  mem : K
  threads : List (Thread K)

/-- Thread `t` makes its next access: a load, or a store of the difference
(_cython_fast_funcs.pyx:247). -/
def step (s : State K) (t : Nat) : State K :=
  match s.threads[t]? with
  | none => s
  | some th =>
    match th.todo with
    | [] => s
    | x :: rest =>
      match th.loaded with
      | none => ⟨s.mem, s.threads.set t ⟨some s.mem, x :: rest⟩⟩
      | some v => ⟨v - x, s.threads.set t ⟨none, rest⟩⟩

/-- The accesses in the order in which they happen. -/
def exec (s : State K) (sched : List Nat) : State K := sched.foldl step s

/-- The threads before the loop: `m` is the content of the element, `chunks` are the terms of every
thread. -/
def start (m : K) (chunks : List (List K)) : State K := ⟨m, chunks.map fun c => ⟨none, c⟩⟩

/-- All threads have ended. -/
def Finished (s : State K) : Prop := ∀ th ∈ s.threads, th.todo = []

/-- The terms of one thread in row `c1` (_cython_fast_funcs.pyx:238-247): only nonempty intersections
lead to an update. -/
noncomputable def terms (c1 : Finset Nat) (cs : List (Finset Nat)) : List ℝ :=
  (cs.filter fun c2 => decide (0 < (c1 ∩ c2).card)).map fun c2 => Info.nviTerm c1.card c2.card (c1 ∩ c2).card

/-- The element of row `c1` at the end of the inner loop: the clusters `blocks` of each thread, the
content of the element before, the order of accesses. -/
noncomputable def rowEnd (c1 : Finset Nat) (blocks : List (List (Finset Nat))) (m : ℝ) (sched : List Nat) : State ℝ :=
  exec (start m (blocks.map (terms c1))) sched

/-- `cython_nvi_parallel` (_cython_fast_funcs.pyx:211-255) for given orders of accesses in every row; the
sum over the rows is a reduction. -/
noncomputable def nviThreads (mem : Nat → ℝ) (sched : Nat → List Nat) (cs1 : List (Finset Nat))
    (blocks : List (List (Finset Nat))) (n : Nat) : ℝ :=
  (cs1.zipIdx.map fun p => (rowEnd p.1 blocks (mem p.2) (sched p.2)).mem).sum / (n * Real.logb 2 n)

end Verif.Races
