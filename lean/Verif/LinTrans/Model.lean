import Verif.Trans.LinModel

/-!
# Model of the transition matrices of lasting and instantaneous contacts

Methods of `ContTempNetwork` and `ContTempInstNetwork` (src/flowstab/temporal_network.py) that
compute inter-event matrices, exact or linear, and their cumulative products.  A call gives the
attributes of the object after it and the exception it raises, if any: attributes written before
the exception stay.
-/

set_option linter.dupNamespace false

namespace Verif.LinTrans

open Verif.TempNet Verif.Trans

variable {K : Type} [Field K] [LinearOrder K] [IsStrictOrderedRing K]

/-- A network: its table, the functions it depends on, its class (`inst`: `ContTempInstNetwork`)
and the matrix exponential `E`. -/
structure Net (K : Type) where
  lin : LinEnv K
  inst : Bool
  E : Mat K → Mat K

/-- Exceptions. -/
inductive NErr
  /-- From `compute_laplacian_matrices` or from one of the linear approximations. -/
  | lin (e : LinErr)
  /-- `raise Exception("Compute inter_T first.")`, `raise Exception("Compute inter_T_lin first.")` -/
  | interFirst
  /-- Unknown keyword. -/
  | typeError
  /-- First matrix of an empty list. -/
  | indexError
  /-- The rate is not a number: `np.median` of no interval.  What the code does with it is not
  modelled. -/
  | nan
  deriving DecidableEq

/-- The attributes `laplacians`, `_stationary_trans`, `inter_T`, `inter_T_lin`, `T` and `T_lin`.
The dictionaries of dictionaries have one key here, the rate and `t_s`. -/
structure NState (K : Type) where
  laps : Option (Laps K)
  pis : Option (List (Mat K))
  interT : List (K × List (Mat K))
  interLin : List ((K × K) × List (Mat K))
  T : List (K × TVal K)
  TLin : List ((K × K) × TVal K)

/-- After the constructor. -/
def NState.fresh : NState K := ⟨none, none, [], [], [], []⟩

/-- `compute_laplacian_matrices` of the class (temporal_network.py:1096-1325, 1979-2093). -/
def Net.laplacians (net : Net K) (tStart tStop : Option K) : Except TempNet.Err (Laps K) :=
  if net.inst then computeInstLaplacians net.lin.n net.lin.events net.lin.startFirst tStart tStop
  else computeLaplacians net.lin.n net.lin.events net.lin.startFirst tStart tStop

/-- `if lamda is None: lamda = 1/np.median(np.diff(self.times))`
(temporal_network.py:1388-1392, 1484-1488). -/
def Net.rate (net : Net K) : Option K → Option K
  | some l => some l
  | none => defaultRate (timesOf net.lin.events)

/-- The value of `fix_tau_k`, if the class has the keyword: `ContTempInstNetwork` has none and
passes `True` (temporal_network.py:1328-1333, 1450-1453, 2105-2107, 2121-2126, 2129-2131, 2154-2160). -/
def Net.fixTau (net : Net K) (given : Option Bool) : Option Bool :=
  if net.inst then (match given with | none => some true | some _ => none) else some (given.getD false)

/-- Rate of `compute_inter_transition_matrices`, the matrices (temporal_network.py:1388-1448). -/
def NState.interCore (net : Net K) (s : NState K) (L : Laps K) (lamda : Option K) (fix : Bool) :
    NState K × Option NErr :=
  match net.rate lamda with
  | none => (s, some .nan)
  | some l =>
    match s.interT.lookup l with
    | some _ => (s, none)
    | none => ({ s with
        interT := (l, interMats net.lin.n net.E (timesOf net.lin.events) L l fix) :: s.interT }, none)

/-- `compute_inter_transition_matrices` (temporal_network.py:1328-1448, 2105-2127). -/
def NState.inter (net : Net K) (s : NState K) (lamda : Option K) (given : Option Bool)
    (tStart tStop : Option K) : NState K × Option NErr :=
  match net.fixTau given with
  | none => (s, some .typeError)
  | some fix =>
    match s.laps with
    | some L => s.interCore net L lamda fix
    | none =>
      match net.laplacians tStart tStop with
      | .error e => (s, some (.lin (.laplacian e)))
      | .ok L => ({ s with laps := some L } : NState K).interCore net L lamda fix

/-- The matrices appended before the first failure, and that failure
(temporal_network.py:1509-1549). -/
def appendUntil {α β ε : Type} (f : α → Except ε β) : List α → List β × Option ε
  | [] => ([], none)
  | a :: l =>
    match f a with
    | .error e => ([], some e)
    | .ok b => let r := appendUntil f l; (b :: r.1, r.2)

/-- The list stored by `compute_lin_inter_transition_matrices` and the exception
(temporal_network.py:1498-1560). -/
def linList (net : Net K) (L : Laps K) (P : List (Mat K)) (lamda tS : K) (fix sparse : Bool) :
    List (Mat K) × Option LinErr :=
  let times := timesOf net.lin.events
  let r := appendUntil (linMat net.lin times L P lamda tS fix sparse)
    (((times.take L.kStop).drop L.kStart).zipIdx)
  match r.2 with
  | some e => (r.1, some e)
  | none =>
    if r.1.length = 0 then (if sparse then ([], some .attributeError) else ([eye], none)) else (r.1, none)

/-- `compute_lin_inter_transition_matrices` once Laplacians and stationary matrices are there
(temporal_network.py:1481-1565). -/
def NState.linCore (net : Net K) (s : NState K) (L : Laps K) (P : List (Mat K)) (lamda : Option K) (tS : K)
    (fix sparse : Bool) : NState K × Option NErr :=
  match net.rate lamda with
  | none => (s, some .nan)
  | some l =>
    match s.interLin.lookup (l, tS) with
    | some _ => (s, none)
    | none =>
      let r := linList net L P l tS fix sparse
      ({ s with interLin := ((l, tS), r.1) :: s.interLin }, r.2.map .lin)

/-- `compute_lin_inter_transition_matrices` (temporal_network.py:1450-1565, 1742-1779, 2129-2160).
The stationary matrices are full matrices here, whatever `use_sparse_stoch` was. -/
def NState.linInter (net : Net K) (s : NState K) (lamda : Option K) (tS : K) (given : Option Bool)
    (sparse : Bool) (tStart tStop : Option K) : NState K × Option NErr :=
  match net.fixTau given with
  | none => (s, some .typeError)
  | some fix =>
    match s.laps with
    | some L =>
      match s.pis with
      | some P => s.linCore net L P lamda tS fix sparse
      | none =>
        let P := stationaries net.lin.n net.lin.comps L
        ({ s with pis := some P } : NState K).linCore net L P lamda tS fix sparse
    | none =>
      match net.laplacians tStart tStop with
      | .error e => (s, some (.lin (.laplacian e)))
      | .ok L =>
        let P := stationaries net.lin.n net.lin.comps L
        ({ s with laps := some L, pis := some P } : NState K).linCore net L P lamda tS fix sparse

/-- `compute_laplacian_matrices`: nothing else is touched. -/
def NState.setLaps (net : Net K) (s : NState K) (tStart tStop : Option K) : NState K × Option NErr :=
  match net.laplacians tStart tStop with
  | .error e => (s, some (.lin (.laplacian e)))
  | .ok L => ({ s with laps := some L }, none)

/-- The value stored by `compute_transition_matrices` (without tolerance) and
`compute_lin_transition_matrices`. -/
def product (n : Nat) (reverse save : Bool) (ms : List (Mat K)) : TVal K :=
  if save then .list (cumulative n reverse none ms) else .last (cumulativeLast n reverse none ms)

/-- `compute_transition_matrices` (temporal_network.py:1569-1659) without tolerance, and with
`force_csr=False`: `None` is not a key. -/
def NState.trans (net : Net K) (s : NState K) (lamda : Option K) (reverse save : Bool) : NState K × Option NErr :=
  match lamda with
  | none => (s, some .interFirst)
  | some l =>
    match s.interT.lookup l with
    | none => (s, some .interFirst)
    | some ms =>
      match s.T.lookup l with
      | some _ => (s, none)
      | none =>
        match ms with
        | [] => (s, some .indexError)
        | _ :: _ => ({ s with T := (l, product net.lin.n reverse save ms) :: s.T }, none)

/-- `compute_lin_transition_matrices` (temporal_network.py:1661-1740): the rate is not replaced
when it is `None`.  When the list is empty `T_lin[lamda]` becomes an empty dictionary, which is
the same as no key here. -/
def NState.linTrans (net : Net K) (s : NState K) (lamda : Option K) (tS : K) (reverse save : Bool) :
    NState K × Option NErr :=
  match lamda with
  | none => (s, some .interFirst)
  | some l =>
    match s.interLin.lookup (l, tS) with
    | none => (s, some .interFirst)
    | some ms =>
      match s.TLin.lookup (l, tS) with
      | some _ => (s, none)
      | none =>
        match ms with
        | [] => (s, some .indexError)
        | _ :: _ => ({ s with TLin := ((l, tS), product net.lin.n reverse save ms) :: s.TLin }, none)

/-- Calls. -/
inductive Call (K : Type)
  | laplacians (tStart tStop : Option K)
  | inter (lamda : Option K) (fix : Option Bool) (tStart tStop : Option K)
  | linInter (lamda : Option K) (tS : K) (fix : Option Bool) (sparse : Bool) (tStart tStop : Option K)
  | trans (lamda : Option K) (reverse save : Bool)
  | linTrans (lamda : Option K) (tS : K) (reverse save : Bool)

/-- One call. -/
def NState.call (net : Net K) (s : NState K) : Call K → NState K × Option NErr
  | .laplacians a b => s.setLaps net a b
  | .inter l f a b => s.inter net l f a b
  | .linInter l tS f sp a b => s.linInter net l tS f sp a b
  | .trans l r v => s.trans net l r v
  | .linTrans l tS r v => s.linTrans net l tS r v

/-- The object after a sequence of calls on a new network, whether they raise or not. -/
def after (net : Net K) (calls : List (Call K)) : NState K :=
  calls.foldl (fun s c => (s.call net c).1) NState.fresh

end Verif.LinTrans
