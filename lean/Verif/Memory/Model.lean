import Verif.Autocov.Model
import Verif.SparseStoch.Model

/-!
# Model of the compiled routines at the level of single memory accesses

`src/flowstab/_cython_sparse_stoch.pyx`.  The routines are compiled without bounds checks and
without negative indices (`boundscheck(False)`, `wraparound(False)`), so an index outside an array is
a stray access.  Here every access is checked and a stray one ends the run with a `Fault`.  Arrays are
lists with a fixed length; integers are unbounded (their widths are the subject of `Verif.Widths`).
-/

set_option linter.dupNamespace false

namespace Verif.Memory

open Verif.Csr

variable {K : Type} [Field K] [LinearOrder K] [IsStrictOrderedRing K]

/-- How a run ends early: a read or a write outside an array, or a `ValueError` raised by numpy
(negative size of a new array, slices of different lengths), or a `ZeroDivisionError`. -/
inductive Fault
  | read | write | valueError | zeroDivision
  deriving DecidableEq, Repr

/-- The result of a run. -/
abbrev Run (α : Type) := Except Fault α

/-- `a[i]` as a value. -/
def rd {α : Type} (a : List α) (i : Int) : Run α :=
  if 0 ≤ i then
    match a[i.toNat]? with
    | some x => .ok x
    | none => .error .read
  else .error .read

/-- `a[i] = x`. -/
def wr {α : Type} (a : List α) (i : Int) (x : α) : Run (List α) :=
  if 0 ≤ i ∧ i.toNat < a.length then .ok (a.set i.toNat x) else .error .write

/-- `for k in range(lo, hi)`. -/
def loop {σ : Type} (lo hi : Int) (s : σ) (f : σ → Int → Run σ) : Run σ :=
  (List.range (hi - lo).toNat).foldlM (fun s (d : Nat) => f s (lo + d)) s

/-- The three arrays of a CSR matrix as they are passed to the routines (for a CSC matrix, those of
its transpose). -/
structure Arrays (K : Type) where
  indptr : List Int
  indices : List Int
  data : List K

/-- The arrays of a matrix. -/
def arraysOf (M : Csr K) : Arrays K := ⟨M.indptr.map (↑), M.indices.map (↑), M.data⟩

/-! ## Sums -/

/-- `get_submat_sum` (_cython_sparse_stoch.pyx:637-662). -/
def submatRun (A : Arrays K) (rows cols : List Int) : Run K :=
  loop 0 rows.length 0 fun s i => do
    let row ← rd rows i
    let lo ← rd A.indptr row
    let hi ← rd A.indptr (row + 1)
    loop lo hi s fun s j => do
      let c ← rd A.indices j
      if c ∈ cols then
        let x ← rd A.data j
        pure (s + x)
      else pure s

/-- The slice `a[lo:hi]`, which Python cuts at the ends of the array
(_cython_sparse_stoch.pyx:689-690). -/
def slice {α : Type} (a : List α) (lo hi : Int) : List α :=
  (a.drop lo.toNat).take (hi.toNat - lo.toNat)

/-- `np.array([i for idx in idx_list for i in idx])` (sparse_stoch_mat.py:967). -/
def idxsOf (groups : List (List Nat)) : List Int := groups.flatten.map (↑)

/-- `np.cumsum([0] + [len(idx) for idx in idx_list])` (sparse_stoch_mat.py:968). -/
def idxptrOf (groups : List (List Nat)) : List Int :=
  (List.range (groups.length + 1)).map fun i => (((groups.take i).map List.length).sum : Nat)

/-- Rows, columns and values of the result of an aggregation: three C++ vectors
(_cython_sparse_stoch.pyx:679-681). -/
structure Coo (K : Type) where
  data : List K
  rows : List Int
  cols : List Int

/-- The three `push_back` (_cython_sparse_stoch.pyx:692-694, 731-733). -/
def Coo.push (B : Coo K) (x : K) (r c : Int) : Coo K := ⟨B.data ++ [x], B.rows ++ [r], B.cols ++ [c]⟩

/-- `aggregate_csr_mat` (_cython_sparse_stoch.pyx:666-696). -/
def aggregateRun (A : Arrays K) (idxs idxptr : List Int) : Run (Coo K) :=
  loop 0 (idxptr.length - 1) ⟨[], [], []⟩ fun B row =>
    loop 0 (idxptr.length - 1) B fun B col => do
      let r0 ← rd idxptr row
      let r1 ← rd idxptr (row + 1)
      let c0 ← rd idxptr col
      let c1 ← rd idxptr (col + 1)
      let pt ← submatRun A (slice idxs r0 r1) (slice idxs c0 c1)
      if 0 < pt then pure (B.push pt row col) else pure B

/-- A C++ map from indices to indices: `m[k]` of a missing key is 0
(_cython_sparse_stoch.pyx:616-618, 722-725). -/
abbrev UMap := List (Int × Int)

/-- `m[k]` as a value. -/
def mapAt (m : UMap) (k : Int) : Int :=
  match m.find? fun e => e.1 == k with
  | some e => e.2
  | none => 0

/-- `aggregate_csr_mat_2` (_cython_sparse_stoch.pyx:699-735). -/
def aggregate2Run (A : Arrays K) (idxs idxptr : List Int) : Run (Coo K) := do
  let m ← loop 0 (idxptr.length - 1) ([] : UMap) fun m kb => do
    let lo ← rd idxptr kb
    let hi ← rd idxptr (kb + 1)
    loop lo hi m fun m ka => do
      let a ← rd idxs ka
      pure ((a, kb) :: m)
  loop 0 (A.indptr.length - 1) ⟨[], [], []⟩ fun B row => do
    let lo ← rd A.indptr row
    let hi ← rd A.indptr (row + 1)
    loop lo hi B fun B k => do
      let col ← rd A.indices k
      let x ← rd A.data k
      pure (B.push x (mapAt m row) (mapAt m col))

/-! ## Gains -/

/-- `while l < k and j + 1 < PTindptr[k+1]: j += 1; l = PTindices[j]`
(_cython_sparse_stoch.pyx:774-776, 863-865); the number of turns left is `hi - 1 - j`. -/
def scanRun (indices : List Int) (k hi : Int) : Nat → Int → Int → Run (Int × Int)
  | 0, j, l => .ok (j, l)
  | n + 1, j, l =>
    if l < k ∧ j + 1 < hi then
      match rd indices (j + 1) with
      | .error e => .error e
      | .ok l' => scanRun indices k hi n (j + 1) l'
    else .ok (j, l)

/-- The sum over one row or column and the given indices
(_cython_sparse_stoch.pyx:763-768, 851-856), with `g` adding or subtracting. -/
def lineRun (g : K → K → K) (A : Arrays K) (k : Int) (idx : List Int) (s : K) : Run K := do
  let lo ← rd A.indptr k
  let hi ← rd A.indptr (k + 1)
  loop lo hi s fun s j => do
    let c ← rd A.indices j
    if c ∈ idx then
      let x ← rd A.data j
      pure (g s x)
    else pure s

/-- `compute_delta_PT_moveto` (`g = +`, _cython_sparse_stoch.pyx:738-781) and
`compute_delta_PT_moveout` (`g = -`, 826-870). -/
def deltaRun (g : K → K → K) (A Ac : Arrays K) (k : Int) (idx : List Int) : Run K := do
  let s ← lineRun g A k idx 0
  let s ← lineRun g Ac k idx s
  let j ← rd A.indptr k
  let l ← rd A.indices j
  let hi ← rd A.indptr (k + 1)
  let (j, l) ← scanRun A.indices k hi (hi - 1 - j).toNat j l
  if l = k then
    let x ← rd A.data j
    pure (s + x)
  else pure s

/-- The loop over the probabilities (_cython_sparse_stoch.pyx:818-822, 907-911). -/
def probRun (g : K → K → K) (p1 p2 : List K) (k : Int) (idx : List Int) (s : K) : Run K := do
  let s ← loop 0 idx.length s fun s i => do
    let v ← rd idx i
    let a ← rd p1 k
    let b ← rd p2 v
    let c ← rd p1 v
    let d ← rd p2 k
    pure (g (g s (a * b)) (c * d))
  let a ← rd p1 k
  let d ← rd p2 k
  pure (s - a * d)

/-- `compute_delta_S_moveto` (_cython_sparse_stoch.pyx:784-823). -/
def deltaStoRun (A Ac : Arrays K) (k : Int) (idx : List Int) (p1 p2 : List K) : Run K := do
  let s ← deltaRun (· + ·) A Ac k idx
  probRun (· - ·) p1 p2 k idx s

/-- `compute_delta_S_moveout` (_cython_sparse_stoch.pyx:873-914). -/
def deltaSoutRun (A Ac : Arrays K) (k : Int) (idx : List Int) (p1 p2 : List K) : Run K := do
  let s ← deltaRun (· - ·) A Ac k idx
  probRun (· + ·) p1 p2 k idx s

/-! ## Row normalisation -/

/-- One row of `inplace_csr_row_normalize` and of its version with an array
(_cython_sparse_stoch.pyx:457-474, 500-517). -/
def normRowRun (indptr : List Int) (target : Run K) (data : List K) (i : Int) : Run (List K) := do
  let lo ← rd indptr i
  let hi ← rd indptr (i + 1)
  let sum ← loop lo hi (0 : K) fun s j => do
    let x ← rd data j
    pure (s + x)
  if sum = 0 then pure data
  else
    let t ← target
    if t = 0 then
      loop lo hi data fun data j => do
        let x ← rd data j
        wr data j (x - sum / ((hi - lo : Int) : K))
    else
      loop lo hi data fun data j => do
        let x ← rd data j
        wr data j (x / (sum / t))

/-- `inplace_csr_row_normalize` (_cython_sparse_stoch.pyx:434-474). -/
def normalizeRun (data : List K) (indptr : List Int) (nrow : Int) (target : K) : Run (List K) :=
  loop 0 nrow data (normRowRun indptr (.ok target))

/-- `inplace_csr_row_normalize_array` (_cython_sparse_stoch.pyx:477-517). -/
def normalizeArrayRun (data : List K) (indptr : List Int) (nrow : Int) (target : List K) :
    Run (List K) :=
  loop 0 nrow data fun data i => normRowRun indptr (rd target i) data i

/-! ## Extraction of the kept rows and columns -/

/-- Arrays under construction and the position of the next entry
(_cython_sparse_stoch.pyx:611-620). -/
structure Out (K : Type) where
  arr : Arrays K
  pos : Int

/-- `np.zeros(n)`: a `ValueError` for a negative size. -/
def zeros {α : Type} (n : Int) (x : α) : Run (List α) :=
  if n < 0 then .error .valueError else .ok (List.replicate n.toNat x)

/-- One kept row (_cython_sparse_stoch.pyx:621-629). -/
def fromFullRowRun (T : Arrays K) (m : UMap) (nz : List Int) (o : Out K) (tsrow : Int) :
    Run (Out K) := do
  let tbrow ← rd nz tsrow
  let lo ← rd T.indptr tbrow
  let hi ← rd T.indptr (tbrow + 1)
  let (o, nzr) ← loop lo hi (o, (0 : Int)) fun (o, nzr) k => do
    let x ← rd T.data k
    let data ← wr o.arr.data o.pos x
    let c ← rd T.indices k
    let indices ← wr o.arr.indices o.pos (mapAt m c)
    pure (⟨⟨o.arr.indptr, indices, data⟩, o.pos + 1⟩, nzr + 1)
  let p ← rd o.arr.indptr tsrow
  let indptr ← wr o.arr.indptr (tsrow + 1) (p + nzr)
  pure ⟨{ o.arr with indptr := indptr }, o.pos⟩

/-- `sparse_stoch_from_full_csr` (_cython_sparse_stoch.pyx:594-632): the arrays of the small
matrix. -/
def fromFullRun (nz : List Int) (T : Arrays K) : Run (Arrays K) := do
  let nnz : Int := T.data.length - T.indptr.length + 1 + nz.length
  let data ← zeros nnz (0 : K)
  let indices ← zeros nnz (-1 : Int)
  let indptr ← zeros (nz.length + 1) (-1 : Int)
  let m ← loop 0 nz.length ([] : UMap) fun m k => do
    let v ← rd nz k
    pure ((v, k) :: m)
  let indptr ← wr indptr 0 0
  let o ← loop 0 nz.length ⟨⟨indptr, indices, data⟩, 0⟩ (fromFullRowRun T m nz)
  pure o.arr

/-! ## Restoration of the full matrix -/

/-- `a[pos:pos+len(xs)] = xs`: the slice of `a` is cut at the end of the array, and numpy raises
`ValueError` when the lengths differ (_cython_sparse_stoch.pyx:424-425). -/
def writeSlice {α : Type} (a : List α) (pos num : Int) (xs : List α) : Run (List α) :=
  if (slice a pos (pos + num)).length ≠ xs.length then .error .valueError
  else .ok (a.take pos.toNat ++ xs ++ a.drop (pos.toNat + xs.length))

/-- Loop variables of `rebuild_nnz_rowcol` (_cython_sparse_stoch.pyx:366-371). -/
structure RebuildState (K : Type) where
  seen : Int
  out : Out K

/-- One row of the full matrix (_cython_sparse_stoch.pyx:404-429). -/
def rebuildRowRun (T : Arrays K) (nz cols : List Int) (diag : K) (st : RebuildState K) (rowId : Int) :
    Run (RebuildState K) := do
  let seen := st.seen + 1
  let o := st.out
  if rowId ∉ nz then
    let p ← rd o.arr.indptr rowId
    if diag = 0 then
      let indptr ← wr o.arr.indptr (rowId + 1) p
      pure ⟨seen - 1, ⟨{ o.arr with indptr := indptr }, o.pos⟩⟩
    else
      let data ← wr o.arr.data o.pos diag
      let indices ← wr o.arr.indices o.pos rowId
      let indptr ← wr o.arr.indptr (rowId + 1) (p + 1)
      pure ⟨seen - 1, ⟨⟨indptr, indices, data⟩, o.pos + 1⟩⟩
  else
    let lo ← rd T.indptr seen
    let hi ← rd T.indptr (seen + 1)
    let data ← writeSlice o.arr.data o.pos (hi - lo) (slice T.data lo hi)
    let indices ← writeSlice o.arr.indices o.pos (hi - lo) (slice cols lo hi)
    let p ← rd o.arr.indptr rowId
    let indptr ← wr o.arr.indptr (rowId + 1) (p + (hi - lo))
    pure ⟨seen, ⟨⟨indptr, indices, data⟩, o.pos + (hi - lo)⟩⟩

/-- `rebuild_nnz_rowcol` (_cython_sparse_stoch.pyx:350-432). -/
def rebuildRun (T : Arrays K) (nz : List Int) (size : Int) (diag : K) : Run (Arrays K) := do
  let nnz : Int := if diag = 0 then T.data.length else T.data.length + size - nz.length
  let data ← zeros nnz (0 : K)
  let indices ← zeros nnz (0 : Int)
  let indptr ← zeros (size + 1) (0 : Int)
  let cols ← loop 0 T.data.length (List.replicate T.data.length (0 : Int)) fun cols k => do
    let c ← rd T.indices k
    let v ← rd nz c
    wr cols k v
  let st ← loop 0 size ⟨-1, ⟨⟨indptr, indices, data⟩, 0⟩⟩ (rebuildRowRun T nz cols diag)
  pure st.out.arr

/-! ## Sum and difference -/

/-- The sparse accumulator: `w` and `b` are C++ vectors of a fixed size, accessed without checks
(sparse_accumulator.cpp:26-62). -/
structure SpaVec (K : Type) where
  w : List K
  b : List Int
  ls : List Int
  cur : Int

/-- `SPA::SPA` (sparse_accumulator.cpp:26-41). -/
def SpaVec.init (n : Nat) : SpaVec K := ⟨List.replicate n 0, List.replicate n (-1), [], 0⟩

/-- `SPA::reset` (sparse_accumulator.cpp:58-61). -/
def SpaVec.reset (s : SpaVec K) (row : Int) : SpaVec K := { s with cur := row, ls := [] }

/-- `SPA::scatter` (sparse_accumulator.cpp:45-56). -/
def SpaVec.scatter (s : SpaVec K) (value : K) (pos : Int) : Run (SpaVec K) := do
  let b ← rd s.b pos
  if b < s.cur then
    let w ← wr s.w pos value
    let b ← wr s.b pos s.cur
    pure { s with w := w, b := b, ls := s.ls ++ [pos] }
  else
    let x ← rd s.w pos
    let w ← wr s.w pos (x + value)
    pure { s with w := w }

/-- `while nz[k] != cnz[ic]: ic += 1` (_cython_sparse_stoch.pyx:161-163): at most `len(cnz) - ic`
turns before the first read outside `cnz`. -/
def advanceRun (cnz : List Int) (v : Int) : Nat → Int → Run Int
  | 0, _ => .error .read
  | n + 1, ic =>
    match rd cnz ic with
    | .error e => .error e
    | .ok c => if v ≠ c then advanceRun cnz v n (ic + 1) else .ok ic

/-- The column map (_cython_sparse_stoch.pyx:155-170). -/
def colMapRun (cnz nz : List Int) : Run (List Int) := do
  let (cols, _) ← loop 0 nz.length (List.replicate nz.length (0 : Int), (0 : Int))
    fun (cols, ic) k => do
      let v ← rd nz k
      let ic ← advanceRun cnz v (cnz.length - ic.toNat + 1) ic
      let cols ← wr cols k ic
      pure (cols, ic)
  pure cols

/-- Loop variables (_cython_sparse_stoch.pyx:141-150). -/
structure AddVars (K : Type) where
  ia : Int
  ib : Int
  ic : Int
  spa : SpaVec K
  out : Out K

/-- `for k in range(Aindptr[ia], Aindptr[ia+1]): spa.scatter(...)`
(_cython_sparse_stoch.pyx:180-181, 187-188). -/
def scatterRowRun (g : K → K) (A : Arrays K) (cols : List Int) (ia : Int) (s : SpaVec K) :
    Run (SpaVec K) := do
  let lo ← rd A.indptr ia
  let hi ← rd A.indptr (ia + 1)
  loop lo hi s fun s k => do
    let x ← rd A.data k
    let c ← rd A.indices k
    let p ← rd cols c
    s.scatter (g x) p

/-- `if i in nz_set: ...; ia += 1` (_cython_sparse_stoch.pyx:178-182, 184-188, 290-300). -/
def rowIfRun (g : K → K) (A : Arrays K) (nz cols : List Int) (i ia : Int) (s : SpaVec K) :
    Run (SpaVec K × Int) :=
  if i ∈ nz then do
    let s ← scatterRowRun g A cols ia s
    pure (s, ia + 1)
  else pure (s, ia)

/-- The diagonal value of the matrix that has no row `i`
(_cython_sparse_stoch.pyx:190-195, 302-307). -/
def diagIfRun (x : K) (nz nz' : List Int) (i ic : Int) (s : SpaVec K) : Run (SpaVec K) :=
  if i ∈ nz ∧ i ∉ nz' then s.scatter x ic else pure s

/-- One row of the result (_cython_sparse_stoch.pyx:176-212, 288-324). -/
def addRowRun (g : K → K) (A B : Arrays K) (anz bnz acol bcol : List Int) (adiag bdiag : K)
    (st : AddVars K) (i : Int) : Run (AddVars K) := do
  let s := st.spa.reset i
  let (s, ia) ← rowIfRun id A anz acol i st.ia s
  let (s, ib) ← rowIfRun g B bnz bcol i st.ib s
  let s ← diagIfRun (g bdiag) anz bnz i st.ic s
  let s ← diagIfRun adiag bnz anz i st.ic s
  let (o, nzi) ← s.ls.foldlM (fun (o, nzi) p => do
      let indices ← wr o.arr.indices o.pos p
      let x ← rd s.w p
      let data ← wr o.arr.data o.pos x
      pure (⟨⟨o.arr.indptr, indices, data⟩, o.pos + 1⟩, nzi + 1)) (st.out, (0 : Int))
  let q ← rd o.arr.indptr st.ic
  let indptr ← wr o.arr.indptr (st.ic + 1) (q + nzi)
  pure ⟨ia, ib, st.ic + 1, s, ⟨{ o.arr with indptr := indptr }, o.pos⟩⟩

/-- `stoch_mat_add` (`g x = x`) and `stoch_mat_sub` (`g x = -1 * x`)
(_cython_sparse_stoch.pyx:92-214, 217-326); `cnz` is `sorted(list(Cnz_set))`. -/
def addRun (g : K → K) (A B : Arrays K) (anz bnz cnz : List Int) (adiag bdiag : K) :
    Run (Arrays K) := do
  let nnz : Int := A.data.length + B.data.length + A.indptr.length + B.indptr.length
  let data ← zeros nnz (0 : K)
  let indices ← zeros nnz (-1 : Int)
  let indptr ← zeros (cnz.length + 1) (-1 : Int)
  let acol ← colMapRun cnz anz
  let bcol ← colMapRun cnz bnz
  let indptr ← wr indptr 0 0
  let st ← cnz.foldlM (addRowRun g A B anz bnz acol bcol adiag bdiag)
    ⟨0, 0, 0, SpaVec.init cnz.length, ⟨⟨indptr, indices, data⟩, 0⟩⟩
  pure st.out.arr

end Verif.Memory
