import Verif.LinTrans.Model
import Verif.Trans.Spec

/-!
# Transition matrices of lasting and instantaneous contacts: vocabulary of the statements
-/

set_option linter.dupNamespace false

namespace Verif.LinTrans

open Verif.TempNet Verif.Trans

variable {K : Type} [Field K] [LinearOrder K] [IsStrictOrderedRing K]

/-- What the cumulative matrices of `ms` should be: the `k`-th is the product of the first `k+1`
matrices in time order, or in reverse order, and is stochastic; without the intermediate ones,
the product of all. -/
def Products (n : Nat) (reverse save : Bool) (ms : List (Mat K)) : TVal K → Prop
  | .list T => save = true ∧ T.length = ms.length ∧ ∀ (k : Nat) (hk : k < T.length),
      EqOn n T[k] (prod n ((if reverse then ms.reverse else ms).take (k + 1))) ∧ Stoch n T[k]
  | .last M => save = false ∧ EqOn n M (prod n (if reverse then ms.reverse else ms)) ∧ Stoch n M

/-- The options a user keeps during a session: the window, `fix_tau_k`, and for each rate (and
`t_s`) the direction of time and whether all cumulative matrices are kept. -/
structure Opts (K : Type) where
  tStart : Option K
  tStop : Option K
  fix : Option Bool
  reverse : K → Bool
  save : K → Bool
  reverseLin : K → K → Bool
  saveLin : K → K → Bool

/-- The call uses the options, rates that are not negative and `t_s` larger than 1.  When
`dense`, sparse linear matrices are not asked for. -/
def Uses (o : Opts K) (dense : Bool) : Call K → Prop
  | .laplacians a b => a = o.tStart ∧ b = o.tStop
  | .inter l f a b => (∀ x, l = some x → 0 ≤ x) ∧ f = o.fix ∧ a = o.tStart ∧ b = o.tStop
  | .linInter l tS f sparse a b => (∀ x, l = some x → 0 ≤ x) ∧ 1 < tS ∧ f = o.fix ∧ (dense = true → sparse = false) ∧
      a = o.tStart ∧ b = o.tStop
  | .trans l r v => ∀ x, l = some x → r = o.reverse x ∧ v = o.save x
  | .linTrans l tS r v => ∀ x, l = some x → r = o.reverseLin x tS ∧ v = o.saveLin x tS

end Verif.LinTrans
