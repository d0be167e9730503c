import Verif.Memory.Model
import Verif.Info.Model
import Mathlib.Data.Rat.Floor

/-!
# Model of the compiled dense routines at the level of single memory accesses

`src/flowstab/_cython_fast_funcs.pyx`, compiled with `boundscheck(False)` and `wraparound(False)`,
next to the numpy versions used when the compiled module is missing (`USE_CYTHON` false,
network_clustering.py:44-56).  As in `Verif.Memory`, a stray access ends the run.  Integers are
unbounded (the code casts node numbers to 32 bits).
-/

set_option linter.dupNamespace false

namespace Verif.DenseMem

open Verif.Memory

variable {K : Type} [Field K] [LinearOrder K] [IsStrictOrderedRing K]

/-- A two-dimensional array; an index is stray if it is outside of its dimension. -/
structure Mat (K : Type) where
  nr : Nat
  nc : Nat
  rows : List (List K)

/-- The rows have the lengths announced by the shape. -/
structure Mat.WF (M : Mat K) : Prop where
  len : M.rows.length = M.nr
  row : ∀ r ∈ M.rows, r.length = M.nc

/-- The entry `M[i, j]`. -/
def Mat.val (M : Mat K) (i j : Nat) : K := (M.rows.getD i []).getD j 0

/-- `np.zeros((nr, nc))`. -/
def zeros (nr nc : Nat) : Mat K := ⟨nr, nc, List.replicate nr (List.replicate nc 0)⟩

/-- `M[i, j]` as a value. -/
def rd2 (M : Mat K) (i j : Int) : Run K := do
  let r ← rd M.rows i
  rd r j

/-- `M[i, j] = x`. -/
def wr2 (M : Mat K) (i j : Int) (x : K) : Run (Mat K) := do
  let r ← rd M.rows i
  let r' ← wr r j x
  let rows ← wr M.rows i r'
  pure ⟨M.nr, M.nc, rows⟩

/-! ## Gains of the dense clustering -/

/-- `sum_Sto` (_cython_fast_funcs.pyx:39-51). -/
def stoRun (S : Mat K) (k : Int) (ix : List Int) : Run K := do
  let s ← loop 0 ix.length 0 fun s i => do
    let a ← rd ix i
    let x ← rd2 S k a
    let b ← rd ix i
    let y ← rd2 S b k
    pure (s + x + y)
  let d ← rd2 S k k
  pure (s + d)

/-- `sum_Sout` (_cython_fast_funcs.pyx:55-67). -/
def soutRun (S : Mat K) (k : Int) (ix : List Int) : Run K := do
  let s ← loop 0 ix.length 0 fun s i => do
    let a ← rd ix i
    let x ← rd2 S k a
    let b ← rd ix i
    let y ← rd2 S b k
    pure (s - x - y)
  let d ← rd2 S k k
  pure (s + d)

/-- Exceptions of numpy. -/
inductive Exc
  | indexError | valueError | assertion
  deriving DecidableEq, Repr

/-- numpy's reading of an index on an axis of length `n`: negative numbers count from the end. -/
def npIdx (n : Nat) (i : Int) : Except Exc Nat :=
  if 0 ≤ i ∧ i < n then .ok i.toNat
  else if -(n : Int) ≤ i ∧ i < 0 then .ok (i + n).toNat
  else .error .indexError

/-- `S[i, j]` in numpy. -/
def npAt (S : Mat K) (i j : Int) : Except Exc K := do
  let a ← npIdx S.nr i
  let b ← npIdx S.nc j
  pure (S.val a b)

/-- The gain without the compiled module (network_clustering.py:1180-1183). -/
def npSto (S : Mat K) (k : Int) (ix : List Int) : Except Exc K := do
  let xs ← ix.mapM fun a => npAt S k a
  let ys ← ix.mapM fun a => npAt S a k
  let d ← npAt S k k
  pure (xs.sum + ys.sum + d)

/-- The loss without the compiled module (network_clustering.py:1212-1215). -/
def npSout (S : Mat K) (k : Int) (ix : List Int) : Except Exc K := do
  let xs ← ix.mapM fun a => npAt S k a
  let ys ← ix.mapM fun a => npAt S a k
  let d ← npAt S k k
  pure (-xs.sum - ys.sum + d)

/-! ## The autocovariance matrix -/

/-- `compute_S` (_cython_fast_funcs.pyx:71-90). -/
def computeSRun (p1 p2 : List K) (T : Mat K) : Run (Mat K) :=
  loop 0 T.nr (zeros T.nr T.nc) fun S i =>
    loop 0 T.nc S fun S j => do
      let a ← rd p1 i
      let t ← rd2 T i j
      let a' ← rd p1 i
      let b ← rd p2 j
      wr2 S i j (a * t - a' * b)

/-- A matrix given by its entries. -/
def Mat.ofFn (nr nc : Nat) (f : Nat → Nat → K) : Mat K :=
  ⟨nr, nc, (List.range nr).map fun i => (List.range nc).map fun j => f i j⟩

/-- `np.diag(p1) @ T - np.outer(p1, p2)` (network_clustering.py:452): the product fails if the
lengths differ, the difference repeats a single column. -/
def npS (p1 p2 : List K) (T : Mat K) : Except Exc (Mat K) :=
  if p1.length ≠ T.nr then .error .valueError
  else if T.nc = p2.length then
    .ok (Mat.ofFn T.nr T.nc fun i j => p1.getD i 0 * T.val i j - p1.getD i 0 * p2.getD j 0)
  else if p2.length = 1 then
    .ok (Mat.ofFn T.nr T.nc fun i j => p1.getD i 0 * T.val i j - p1.getD i 0 * p2.getD 0 0)
  else if T.nc = 1 then
    .ok (Mat.ofFn T.nr p2.length fun i j => p1.getD i 0 * T.val i 0 - p1.getD i 0 * p2.getD j 0)
  else .error .valueError

/-- `1/x` with Python's division (_cython_fast_funcs.pyx:109). -/
def invRun (x : K) : Run K := if x = 0 then .error .zeroDivision else .ok (1 / x)

/-- `compute_S_0t0` (_cython_fast_funcs.pyx:94-112). -/
def computeS0t0Run (p0 pt : List K) (T : Mat K) : Run (Mat K) :=
  loop 0 T.nr (zeros T.nr T.nr) fun S i =>
    loop 0 T.nr S fun S j => do
      let S ← loop 0 T.nr S fun S k => do
        let s ← rd2 S i j
        let a ← rd p0 i
        let t ← rd2 T i k
        let q ← rd pt k
        let r ← invRun q
        let u ← rd2 T j k
        let b ← rd p0 j
        wr2 S i j (s + a * t * r * u * b)
      let s ← rd2 S i j
      let a ← rd p0 i
      let b ← rd p0 j
      wr2 S i j (s - a * b)

/-- How the construction of a clustering ends early: an exception, or a stray access of the compiled
module. -/
inductive End
  | raised (e : Exc) | stray
  deriving DecidableEq, Repr

/-- The test on the rows of `T` (network_clustering.py:354-356). -/
def rowOk (r : List K) : Bool := Autocov.allclose r.sum 1 || Autocov.allclose r.sum 0

/-- The distribution `p1` (network_clustering.py:360-362). -/
def p1Of (T : Mat K) (p1 : Option (List K)) : List K := p1.getD (List.replicate T.nr (1 / (T.nr : K)))

/-- The distribution `p2 = p1 @ T` (network_clustering.py:364-365). -/
def p2Of (T : Mat K) (p1 : List K) : Option (List K) → Except Exc (List K)
  | some p2 => .ok p2
  | none =>
    if p1.length ≠ T.nr then .error .valueError
    else .ok ((List.range T.nc).map fun j => ((List.range T.nr).map fun i => p1.getD i 0 * T.val i j).sum)

/-- The matrix of a dense clustering made from `T` (network_clustering.py:345-387, 431-458), without
threshold; `compiled` says whether the compiled module is there. -/
def initS (compiled : Bool) (T : Mat K) (p1 p2 : Option (List K)) : Except End (Mat K) :=
  if ¬ (T.nr = T.nc ∨ T.nr = 1 ∨ T.nc = 1) then .error (.raised .valueError)
  else if ¬ T.rows.all rowOk then .error (.raised .assertion)
  else
    match p2Of T (p1Of T p1) p2 with
    | .error e => .error (.raised e)
    | .ok q2 =>
      if compiled then
        match computeSRun (p1Of T p1) q2 T with
        | .ok S => .ok S
        | .error _ => .error .stray
      else
        match npS (p1Of T p1) q2 T with
        | .ok S => .ok S
        | .error e => .error (.raised e)

/-! ## Mutual information -/

/-- `len(c)/N` with Python's division (_cython_fast_funcs.pyx:138, 140, 143). -/
def divN (a N : Nat) : Run K := if N = 0 then .error .zeroDivision else .ok ((a : K) / (N : K))

/-- `for i in range(n): if p[i] != 0: H -= p[i]*log2(p[i])` (_cython_fast_funcs.pyx:146-155). -/
def entropyRun (lg : K → K) (p : List K) (n : Nat) : Run K :=
  loop 0 n 0 fun h i => do
    let x ← rd p i
    if x ≠ 0 then
      let y ← rd p i
      let z ← rd p i
      pure (h - y * lg z)
    else pure h

/-- The two nested loops (_cython_fast_funcs.pyx:137-141): `p1`, `p12` and `k`. -/
def jointRun (c1 c2 : List (Finset Nat)) (N n1 n2 : Nat) : Run (List K × List K × Int) :=
  loop 0 c1.length (List.replicate n1 0, List.replicate (n1 * n2) 0, 0) fun st i => do
    let a ← rd c1 i
    let x ← divN a.card N
    let p1 ← wr st.1 i x
    let r ← loop 0 c2.length (st.2.1, st.2.2) fun q j => do
      let b ← rd c2 j
      let y ← divN (a ∩ b).card N
      let p12 ← wr q.1 q.2 y
      pure (p12, q.2 + 1)
    pure (p1, r.1, r.2)

/-- The loop filling `p2` (_cython_fast_funcs.pyx:142-143). -/
def margRun (c2 : List (Finset Nat)) (N n2 : Nat) : Run (List K) :=
  loop 0 c2.length (List.replicate n2 0) fun p2 j => do
    let b ← rd c2 j
    let y ← divN b.card N
    wr p2 j y

/-- `cython_nmi` (_cython_fast_funcs.pyx:116-158); `lg` is `log2`. The sizes `n1`, `n2` are given by
the caller. -/
def nmiRun (lg : K → K) (c1 c2 : List (Finset Nat)) (N n1 n2 : Nat) : Run K := do
  let r ← jointRun c1 c2 N n1 n2
  let p2 ← margRun c2 N n2
  let h1 ← entropyRun lg r.1 n1
  let h2 ← entropyRun lg p2 n2
  let h12 ← entropyRun lg r.2.1 (n1 * n2)
  if max h1 h2 = 0 then .error .zeroDivision else .ok ((h1 + h2 - h12) / max h1 h2)

/-! ## Variation of information on indicator matrices -/

/-- The arrays `indices` and `indptr` of the indicator matrix (_cython_fast_funcs.pyx:348-368, 405-437);
a cluster is the list of its nodes in the order of `list(c)`. -/
def buildRun (cs : List (List Int)) (N : Nat) : Run (List Int × List Int) :=
  loop 0 cs.length (List.replicate N 0, List.replicate (cs.length + 1) 0) fun st i => do
    let l ← rd cs i
    let lo ← rd st.2 i
    let ptr ← wr st.2 (i + 1) (lo + l.length)
    let a ← rd ptr i
    let b ← rd ptr (i + 1)
    let r ← loop a b (st.1, (0 : Int)) fun q j => do
      let x ← rd l q.2
      let ind ← wr q.1 j x
      pure (ind, q.2 + 1)
    pure (r.1, ptr)

/-- The loop of `indices_intersection_length` with its two positions (_cython_fast_funcs.pyx:456-472);
the first argument bounds the number of turns. -/
def mergeRun (a b : List Int) : Nat → Int → Int → Nat → Run Nat
  | 0, _, _, len => .ok len
  | n + 1, i, j, len =>
    if i < a.length ∧ j < b.length then
      match rd a i with
      | .error e => .error e
      | .ok x =>
        match rd b j with
        | .error e => .error e
        | .ok y =>
          if x = y then mergeRun a b n (i + 1) (j + 1) (len + 1)
          else if x < y then mergeRun a b n (i + 1) j len
          else mergeRun a b n i (j + 1) len
    else .ok len

/-- `indices_intersection_length` (_cython_fast_funcs.pyx:442-472). -/
def interRun (a b : List Int) : Run Nat :=
  mergeRun (Info.sortInts a) (Info.sortInts b) (a.length + b.length) 0 0 0

/-- `cython_nvi_mat` (_cython_fast_funcs.pyx:319-384); `lg` is `log2`.  The last division is the one
of `K`: for `N ≤ 1` the code divides by zero and returns `nan`. -/
def nviMatRun (lg : K → K) (cs1 cs2 : List (List Int)) (N : Nat) : Run K := do
  let m1 ← buildRun cs1 N
  let m2 ← buildRun cs2 N
  let v ← loop 0 cs1.length 0 fun v i => do
    let a0 ← rd m1.2 i
    let a1 ← rd m1.2 (i + 1)
    loop 0 cs2.length v fun v j => do
      let b0 ← rd m2.2 j
      let b1 ← rd m2.2 (j + 1)
      let nij ← interRun (slice m1.1 a0 a1) (slice m2.1 b0 b1)
      if 0 < nij then
        pure (v - (nij : K) * lg ((nij : K) ^ 2 / (((a1 - a0 : Int) : K) * ((b1 - b0 : Int) : K))))
      else pure v
  pure (v / ((N : K) * lg (N : K)))

end Verif.DenseMem
