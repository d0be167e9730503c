import Verif.ClustMain.Model
import Verif.CovMain.ScanSpec

/-! # What a user expects of the choice of files (C139) -/

namespace Verif.ClustMain

open Verif.CovMain (Text Four)

/-- A finished integral. -/
def Out.Finished : Out → Prop
  | .integral _ _ _ _ => True
  | _ => False

instance : DecidablePred Out.Finished := fun o => by cases o <;> unfold Out.Finished <;> infer_instance

/-- A file that `run_cov_integrals` wrote. -/
def Out.FromCov : Out → Prop
  | .laps _ => False
  | _ => True

/-- A file with an extension that the code writes. -/
def Out.Known : Out → Prop
  | .laps e => e.Known
  | _ => True

/-- The name of a network that has none of the three texts in it that `run_clusterings` looks for. -/
structure Plain (net : Text) : Prop where
  scale : ¬ "_tau_w".toList <:+: net
  temp : ¬ "temp_integration".toList <:+: net
  other : ¬ "pTpint".toList <:+: net

/-- The two files are of the same kind, of time scales that are written alike, and of the same
points. -/
def Out.Alike (round : ℚ → Four) : Out → Out → Prop
  | .integral tau k i j, .integral tau' k' i' j' => (round tau).text = (round tau').text ∧ k = k' ∧ i = i' ∧ j = j'
  | .temp tau k i j, .temp tau' k' i' j' => (round tau).text = (round tau').text ∧ k = k' ∧ i = i' ∧ j = j'
  | _, _ => False

end Verif.ClustMain
