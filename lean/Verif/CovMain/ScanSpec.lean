import Verif.CovMain.Names

/-!
# Specification: what the names of the files say
-/

namespace Verif.CovMain

open Verif.Laps (What)

/-- A text with `int` and six digits somewhere in it. -/
def Numbered (p : Text) : Prop :=
  ∃ a d b : Text, p = a ++ "int".toList ++ d ++ b ∧ d.length = 6 ∧ ∀ c ∈ d, '0' ≤ c ∧ c ≤ '9'

/-- A part of the name of a network that cannot be taken for an interval or a time scale. -/
def Harmless (p : Text) : Prop := ¬ Numbered p ∧ ∀ r, p ≠ 'w' :: r

/-- The interval of a file. -/
def Entry.interval : Entry → Nat
  | .mats _ k _ _ => k
  | .adjacency k => k

/-- The time scale of a file. -/
def Entry.scale : Entry → Option ℚ
  | .mats tau _ _ _ => some tau
  | .adjacency _ => none

/-- The extension is one that the code writes (temporal_network.py:460-468, 851-859). -/
def Entry.Known : Entry → Prop
  | .mats _ _ _ ext => ext = ".pickle".toList ∨ ext = ".gz".toList ∨ ext = ".pickle.gz".toList
  | .adjacency _ => True

end Verif.CovMain
