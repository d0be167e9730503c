import Verif.Calls.Table

/-! # When a call is right, and what a user expects of the calls of the scripts (C138) -/

set_option linter.dupNamespace false

namespace Verif.Calls

/-- A call fits a signature when every argument has a parameter of its own and every parameter
without a default value gets one: no more positional arguments than there are places; every name is
that of a parameter that has no positional argument (or there is a `**kwargs` for it), and no name
comes twice; and a parameter that must be given has a positional argument or its name is there. -/
structure Fits (s : Sig) (c : Call) : Prop where
  places : c.args ≤ s.pos.length
  once : c.kws.Nodup
  free : ∀ k ∈ c.kws, ∀ i (h : i < s.pos.length), i < c.args → s.pos[i].name ≠ k
  known : s.more = false → ∀ k ∈ c.kws, ∃ p ∈ s.params, p.name = k
  given : ∀ p ∈ s.params, p.needed = true →
    (∃ i, ∃ h : i < s.pos.length, i < c.args ∧ s.pos[i].name = p.name) ∨ p.name ∈ c.kws

/-- The calls that the scripts and the functions behind them make. -/
def allCalls : List Site := lapsCalls ++ covCalls ++ clustCalls ++ parCalls

end Verif.Calls
