import Verif.SparseStoch.Model
import Verif.SaveLoad.Model

/-!
# Model of the files of transition matrices

`save_T`, `save_T_lin`, `load_T`, `save_inter_T`, `save_inter_T_lin` (the branch without
`save_delta`; the other one is `Verif.Trans.saveDelta`) and `load_inter_T`
(`src/flowstab/temporal_network.py:407-1043`).  `H` stands for the other entries of the file
(window, times, number of nodes), which are copied.  Dictionaries are lists of pairs in the order
of insertion.
-/

set_option linter.dupNamespace false

namespace Verif.MatFiles

open Verif.Csr Verif.SparseStoch

variable {K : Type} [Field K] [LinearOrder K] [IsStrictOrderedRing K]

/-- Exceptions. -/
inductive FErr where
  | fileNotFound | keyError | indexError | typeError | valueError | assertionError
  | attributeError | unboundLocal | badFile
  deriving DecidableEq, Repr

/-- A matrix held by the network: `SparseStochMat`, `csr_matrix`, or anything else (a list of
matrices, an array). -/
inductive Mx (K : Type) where
  | ssm (A : SSM K)
  | csr (M : Csr K)
  | other

/-- `to_dict()` (sparse_stoch_mat.py:272-279). -/
structure SDict (K : Type) where
  size : Nat
  data : List K
  indices : List Nat
  indptr : List Nat
  nz : List Nat
  diag : K

/-- `to_dict` (sparse_stoch_mat.py:272-279). -/
def toDict (A : SSM K) : SDict K := ⟨A.size, A.small.data, A.small.indices, A.small.indptr, A.nz, A.diag⟩

/-- `SparseStochMat(**mat_dict)` (temporal_network.py:744, 768, 1010, 1028). -/
def ofDict (d : SDict K) : Except FErr (SSM K) :=
  match mkSSM d.size ⟨d.indices.zip d.data, d.indptr⟩ d.nz d.diag with
  | .ok A => .ok A
  | .error _ => .error .valueError

/-- A matrix in a file. -/
inductive Stored (K : Type) where
  | dict (d : SDict K)
  | csr (M : Csr K)

/-- A dictionary of dictionaries of matrices: by rate, then by the parameter `t_s` for the linear
matrices.  `T` has no second level; its inner dictionaries have one item. -/
abbrev Table (K M : Type) := List (K × List (K × M))

/-- `round_zeros=True, tol=tol` on a copy (temporal_network.py:826-830, 912-916). -/
def roundSsm (round : Option K) (A : SSM K) : SSM K :=
  match round with
  | none => A
  | some tol => A.setToZeroes tol true false

/-- The same for a csr matrix: `set_to_zeroes` of temporal_network.py:2646-2668. -/
def roundCsr (round : Option K) (M : Csr K) : Csr K :=
  match round with
  | none => M
  | some tol => csrSetToZeroes tol true false M

/-- One matrix (temporal_network.py:824-847, 910-934). -/
def storeOne (round : Option K) : Mx K → Except FErr (Stored K)
  | .ssm A => .ok (.dict (toDict (roundSsm round A)))
  | .csr M => .ok (.csr (roundCsr round M))
  | .other => .error .typeError

/-- A loop over the items of a dictionary. -/
def mapItems {A B : Type} (f : A → Except FErr B) : List (K × A) → Except FErr (List (K × B))
  | [] => .ok []
  | (k, a) :: l =>
    match f a with
    | .error e => .error e
    | .ok b =>
      match mapItems f l with
      | .error e => .error e
      | .ok r => .ok ((k, b) :: r)

/-- The rates to save (temporal_network.py:818-821, 901-904): all, or the given one, which must be
there. -/
def selected {M : Type} (T : Table K M) (lamda : Option K) : Except FErr (Table K M) :=
  match lamda with
  | none => .ok T
  | some l =>
    match T.lookup l with
    | none => .error .keyError
    | some d => .ok [(l, d)]

/-- Whether `save_dict["is_sparse_stoch"] = True` was reached. -/
def anySsm (T : Table K (Mx K)) : Bool :=
  T.any fun p => p.2.any fun q => match q.2 with | .ssm _ => true | _ => false

/-- A file: compressed or not, the flag, the matrices (`T`, `T_lin`) or lists of matrices
(`inter_T`, `inter_T_lin`). -/
inductive Content (K H : Type) where
  | mats (h : H) (sparse : Bool) (T : Table K (Stored K))
  | lists (h : H) (T : Table K (List (SDict K)))

/-- A file on disk. -/
structure File (K H : Type) where
  gz : Bool
  content : Content K H

/-- The files. -/
abbrev Disk (K H : Type) := List Char → Option (File K H)

/-- `os.path.splitext(filename)[-1]`. -/
def ext (name : List Char) : List Char := name.drop (Verif.SaveLoad.stem name).length

/-- The path written (temporal_network.py:460-468, 582-590, 850-867, 937-954). -/
def savePath (compressed : Bool) (name : List Char) : List Char :=
  if compressed then
    if ext name = ".gz".toList then name else name ++ ".gz".toList
  else if ext name = ".pickle".toList then name else name ++ ".pickle".toList

/-- Write a file. -/
def put {H : Type} (d : Disk K H) (p : List Char) (f : File K H) : Disk K H := fun q =>
  if q = p then some f else d q

/-- `save_T` and `save_T_lin` (temporal_network.py:790-959).  The variable `text` is unbound if
there is no matrix.  Returns the disk and the matrices held by the network after the call: rounding
is done on copies. -/
def saveT {H : Type} (d : Disk K H) (h : H) (T : Option (Table K (Mx K))) (name : List Char)
    (lamda round : Option K) (compressed : Bool) : Except FErr (Disk K H × Table K (Mx K)) :=
  match T with
  | none => .error .assertionError
  | some T =>
    match selected T lamda with
    | .error e => .error e
    | .ok S =>
      match mapItems (mapItems (storeOne round)) S with
      | .error e => .error e
      | .ok F =>
        if S.all fun p => p.2.isEmpty then .error .unboundLocal
        else .ok (put d (savePath compressed name) ⟨compressed, .mats h (anySsm S) F⟩, T)

/-- The path read (temporal_network.py:703-718, 969-984) and whether it is read with gzip. -/
def loadPath {H : Type} (d : Disk K H) (name : List Char) : Except FErr (List Char × Bool) :=
  if ext name = ".pickle".toList then .ok (name, false)
  else if ext name = ".gz".toList then .ok (name, true)
  else if (d (name ++ ".pickle".toList)).isSome then .ok (name ++ ".pickle".toList, false)
  else if (d (name ++ ".gz".toList)).isSome then .ok (name ++ ".gz".toList, true)
  else if (d (name ++ ".pickle.gz".toList)).isSome then .ok (name ++ ".pickle.gz".toList, true)
  else .error .fileNotFound

/-- The content of a file (temporal_network.py:720-727, 986-993). -/
def readFile {H : Type} (d : Disk K H) (name : List Char) : Except FErr (Content K H) :=
  match loadPath d name with
  | .error e => .error e
  | .ok (p, gz) =>
    match d p with
    | none => .error .fileNotFound
    | some f => if f.gz = gz then .ok f.content else .error .badFile

/-- One matrix (temporal_network.py:1003-1037): with the flag every item is given to
`SparseStochMat(**item)`. -/
def restoreOne (sparse : Bool) : Stored K → Except FErr (Mx K)
  | .dict s =>
    if sparse then
      match ofDict s with
      | .error e => .error e
      | .ok A => .ok (.ssm A)
    else .ok .other
  | .csr M => if sparse then .error .typeError else .ok (.csr M)

/-- `load_T` (temporal_network.py:961-1043): the header and the matrices. -/
def loadT {H : Type} (d : Disk K H) (name : List Char) : Except FErr (H × Table K (Mx K)) :=
  match readFile d name with
  | .error e => .error e
  | .ok (.lists _ _) => .error .badFile
  | .ok (.mats h sparse T) =>
    match mapItems (mapItems (restoreOne sparse)) T with
    | .error e => .error e
    | .ok R => .ok (h, R)

/-- A list of inter-event matrices: all of them compressed matrices or none, as one call with one
value of `use_sparse_stoch` computes them. -/
inductive Lst (K : Type) where
  | ssms (l : List (SSM K))
  | others (l : List (Csr K))

/-- The list after `interT.set_to_zeroes(tol)`, which works in place
(temporal_network.py:547-548, 672-673). -/
def roundLst (round : Option K) : Lst K → Lst K
  | .ssms l => .ssms (l.map (roundSsm round))
  | .others l => .others l

/-- The test on the first matrix and `to_dict` (temporal_network.py:540-549, 663-674). -/
def storeList (round : Option K) : Lst K → Except FErr (List (SDict K))
  | .ssms [] => .error .indexError
  | .others [] => .error .indexError
  | .ssms l => .ok (l.map fun A => toDict (roundSsm round A))
  | .others _ => .error .assertionError

/-- The network after the call: the lists of the saved rates are rounded in place. -/
def roundTable (round lamda : Option K) (T : Table K (Lst K)) : Table K (Lst K) :=
  T.map fun p => if lamda = none ∨ lamda = some p.1 then
    (p.1, p.2.map fun q => (q.1, roundLst round q.2)) else p

/-- `save_inter_T(save_delta=False)` (`lin = false`) and `save_inter_T_lin` (`lin = true`)
(temporal_network.py:407-692): the disk and the matrices held by the network after the call.  For
the linear matrices `lamda=None` reads `delta_inter_T_lin`, which this branch never sets
(temporal_network.py:658-659).  An exception leaves no file; that it may leave some matrices rounded
is not modelled. -/
def saveInter {H : Type} (lin : Bool) (d : Disk K H) (h : H) (T : Option (Table K (Lst K)))
    (name : List Char) (lamda round : Option K) (compressed replace : Bool) :
    Except FErr (Disk K H × Table K (Lst K)) :=
  match T with
  | none => .error .assertionError
  | some T =>
    if (d (savePath compressed name)).isSome ∧ replace = false then .ok (d, T)
    else if lin = true ∧ lamda = none then .error .attributeError
    else
      match selected T lamda with
      | .error e => .error e
      | .ok S =>
        match mapItems (mapItems (storeList round)) S with
        | .error e => .error e
        | .ok F => .ok (put d (savePath compressed name) ⟨compressed, .lists h F⟩,
            roundTable round lamda T)

/-- The matrices of one list. -/
def restoreList : List (SDict K) → Except FErr (Lst K)
  | l =>
    match l.mapM ofDict with
    | .error e => .error e
    | .ok r => .ok (.ssms r)

/-- `load_inter_T` for files with the flag `is_sparse_stoch` (temporal_network.py:695-788). -/
def loadInter {H : Type} (d : Disk K H) (name : List Char) : Except FErr (H × Table K (Lst K)) :=
  match readFile d name with
  | .error e => .error e
  | .ok (.mats _ _ _) => .error .badFile
  | .ok (.lists h T) =>
    match mapItems (mapItems restoreList) T with
    | .error e => .error e
    | .ok R => .ok (h, R)

end Verif.MatFiles
