import Verif.Decay.Lemmas

/-!
# Flow stability decreases with the length of the flow, and is bounded: property C126
-/

set_option linter.dupNamespace false
set_option linter.unusedSectionVars false

namespace Verif.Decay

open Verif.Trans Verif.Flow Verif.Autocov Verif.Partition Verif.Louvain

variable {K : Type} [Field K] [LinearOrder K] [IsStrictOrderedRing K]

/-- **C126**, one step.  When a further transition follows, the covariance of the flow becomes
nowhere larger. -/
theorem C126_step {n : Nat} {p : Nat → K} (hp : Distribution n p) {T U : Mat K} (hT : Stoch n T)
    (hU : Stoch n U) : Below n (covAt n p (mul n T U)) (covAt n p T) :=
  covAt_mul hp.1 (fun i hi => (hT i hi).1) hU

/-- What the list of covariances of the object contains. -/
theorem iList_below {inp : Input K} {Ms : List (Mat K)} {ts : List K} (h : Regular inp Ms ts) {o : Obj K}
    (ho : construct inp = .ok o) :
    (o.iList.Pairwise fun A B => Below inp.n B A) ∧
      ∀ S ∈ o.iList, Below inp.n S (covAt inp.n (inp.p1.getD (uniform inp.n)) eye) := by
  obtain ⟨J, hJ, hval⟩ := C47_integral h ho
  rw [hJ]
  constructor
  · rw [List.pairwise_map]
    refine List.Pairwise.imp_of_mem ?_ (List.Pairwise.filter _ List.pairwise_lt_range')
    intro a b ha hb hab x
    have ha := List.mem_range'_1.1 (List.mem_filter.1 ha).1
    have hb := List.mem_range'_1.1 (List.mem_filter.1 hb).1
    rw [form_congr (hval a ha.1 (by omega)).1 x, form_congr (hval b hb.1 (by omega)).1 x]
    exact flow_below h.dist.1 h.stoch h.increasing h.length ha.1 hab.le (by omega) x
  · intro S hS x
    obtain ⟨m, hm, rfl⟩ := List.mem_map.1 hS
    have hm := List.mem_range'_1.1 (List.mem_filter.1 hm).1
    rw [form_congr (hval m hm.1 (by omega)).1 x]
    exact flow_le_eye h.dist.1 h.stoch h.increasing h.length hm.1 (by omega) x

/-- **C126**, the covariances of the object.  Along the grid of integration times, forward or
backward, the covariances become nowhere larger. -/
theorem C126_integrals {inp : Input K} {Ms : List (Mat K)} {ts : List K} (h : Regular inp Ms ts) {o : Obj K}
    (ho : construct inp = .ok o) : o.iList.Pairwise fun A B => Below inp.n B A := (iList_below h ho).1

/-- **C126**, the flow stability.  The stability of a partition does not increase with the
integration time. -/
theorem C126_stability {inp : Input K} {Ms : List (Mat K)} {ts : List K} (h : Regular inp Ms ts) {o : Obj K}
    (ho : construct inp = .ok o) {p : Part} (hp : IsPartition inp.n p.clusters) :
    o.iList.Pairwise fun A B => stability B p ≤ stability A p :=
  (C126_integrals h ho).imp fun hAB => stability_below hp hAB

/-- **C126**, bounds.  The stability of a partition is between zero and one minus the sum of
the squared probabilities of the clusters, thus at most one minus one over their number. -/
theorem C126_bounds {inp : Input K} {Ms : List (Mat K)} {ts : List K} (h : Regular inp Ms ts) {o : Obj K}
    (ho : construct inp = .ok o) {p : Part} (hp : IsPartition inp.n p.clusters) {S : Mat K} (hS : S ∈ o.iList) :
    0 ≤ stability S p ∧
      stability S p ≤ 1 - (p.clusters.map fun c => share (inp.p1.getD (uniform inp.n)) c ^ 2).sum ∧
      stability S p ≤ 1 - 1 / (p.clusters.length : K) := by
  have hup := stability_below hp ((iList_below h ho).2 S hS)
  rw [stability_eye h.dist hp] at hup
  refine ⟨?_, hup, ?_⟩
  · have hc := C22_integral (Ms := Ms) (.inl h.mats) h.stoch
      (fun us hus => by rw [h.times] at hus; cases hus; exact h.increasing) h.dist h.exact ho S hS
    rw [stability_form hp]
    refine List.sum_nonneg fun v hv => ?_
    obtain ⟨c, -, rfl⟩ := List.mem_map.1 hv
    exact hc.2.2 _
  · have := share_sq h.dist hp
    linarith

/-- **C126**, the bound is reached.  The upper bound is the exact value when nothing moves. -/
theorem C126_still {n : Nat} {q : Nat → K} (hq : Distribution n q) {p : Part} (hp : IsPartition n p.clusters) :
    stability (covAt n q eye) p = 1 - (p.clusters.map fun c => share q c ^ 2).sum := stability_eye hq hp

/-! ## Examples -/

/-- Every node by itself. -/
def exPart : Part := ⟨2, [{0}, {1}], fun v => if v = 0 then some 0 else some 1⟩

theorem ex_partition : IsPartition 2 exPart.clusters := by
  intro v
  have key : ∀ i v, At exPart.clusters i v ↔ (i = 0 ∧ v = 0) ∨ (i = 1 ∧ v = 1) := by
    intro i v
    unfold At exPart
    match i with
    | 0 => simp
    | 1 => simp
    | i + 2 => simp
  refine ⟨fun hv => ⟨v, ?_, ?_⟩, ?_⟩
  · show At exPart.clusters v v; rw [key]; omega
  · intro i hi; rw [key] at hi; omega
  · intro hv i hi; rw [key] at hi; omega

/-- A flow that meets the hypotheses, in both directions, with two integration times, where the
stability of the partition falls and the bound is strict. -/
example (reverse : Bool) : Regular (exInp reverse (some [0, 1, 3])) [exM1, exM2] [0, 1, 3] ∧
    IsPartition (exInp reverse (some [0, 1, 3])).n exPart.clusters ∧
    (match construct (exInp reverse (some [0, 1, 3])) with
    | .ok o => match o.iList with
      | [A, B] => decide (0 < stability B exPart ∧ stability B exPart < stability A exPart ∧ stability A exPart < 1 / 2)
      | _ => false
    | .error _ => false) = true :=
  ⟨ex_regular reverse _, ex_partition, by cases reverse <;> decide +kernel⟩

end Verif.Decay
