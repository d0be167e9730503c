import Verif.Synth.Model

/-!
# Synthetic networks: vocabulary of the statements
-/

set_option linter.dupNamespace false

namespace Verif.Synth

variable {K : Type} [Field K] [LinearOrder K] [IsStrictOrderedRing K]

/-- The population is accepted by the constructor, and IDs and groups are not negative. -/
structure Valid (sim : Sim K) : Prop where
  accepted : sim.accepted = true
  ids : ∀ i ∈ sim.ids, 0 ≤ i
  groups : ∀ k < sim.n, 0 ≤ sim.group k

/-- The random numbers: times are not negative, a group with positive probability is drawn, and a
partner is drawn among the allowed ones. -/
structure Good (sim : Sim K) (d : Draws K) : Prop where
  activ : ∀ k i t x, d.activ k i t = some x → 0 ≤ x
  inter : ∀ k i t x, d.inter k i t = some x → 0 ≤ x
  target : ∀ k p, (∀ g < sim.nGroups, 0 ≤ p g) → ∑ g ∈ Finset.range sim.nGroups, p g = 1 →
    d.targetGroup k p < sim.nGroups ∧ 0 < p (d.targetGroup k p)
  pick : ∀ k l, l ≠ [] → d.pick k l ∈ l

/-- Group of an individual. -/
def groupOf (sim : Sim K) (i : Int) : Int := sim.group i.toNat

/-- Who may be chosen by `i` at time `t`, besides the restriction to other individuals. -/
def Allowed (sim : Sim K) (t : K) (i q : Int) : Prop :=
  match sim.method with
  | .uniform => True
  | .withinGroup => groupOf sim q = groupOf sim i
  | .block probs => probs (groupOf sim i).toNat (groupOf sim q).toNat ≠ 0
  | .blockMod f => 0 < f t (groupOf sim i).toNat (groupOf sim q).toNat
  | .other => False

/-- A contact of the simulation: between two different individuals, in the right order of time,
not before the start, and with an allowed partner. -/
structure WellFormed (sim : Sim K) (c : Contact K) : Prop where
  src : c.src ∈ sim.ids
  tgt : c.tgt ∈ sim.ids
  different : c.src ≠ c.tgt
  started : sim.tStart ≤ c.start
  order : c.start ≤ c.stop
  allowed : Allowed sim c.start c.src c.tgt

/-- Two contacts of the same ordered pair do not overlap. -/
def Apart (a b : Contact K) : Prop := a.src = b.src → a.tgt = b.tgt → a.stop ≤ b.start ∨ b.stop ≤ a.start

/-- No scale is 0, and the probabilities of the groups are such that something can be drawn. -/
structure Drawable (sim : Sim K) (d : Draws K) : Prop where
  activ : ∀ k i t, (d.activ k i t).isSome
  inter : ∀ k i t, (d.inter k i t).isSome
  probs : match sim.method with
    | .block probs => ∀ a < sim.nGroups, (∀ b < sim.nGroups, 0 ≤ probs a b) ∧ ∃ b < sim.nGroups, 0 < probs a b
    | .blockMod f => ∀ t, ∀ a < sim.nGroups, (∀ b < sim.nGroups, 0 ≤ f t a b) ∧
        (∑ b ∈ Finset.range sim.nGroups, f t a b = 1 ∨ ∑ b ∈ Finset.range sim.nGroups, f t a b = 0)
    | .other => False
    | _ => True

end Verif.Synth
