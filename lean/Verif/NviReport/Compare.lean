import Verif.NviReport.CompareModel
import Verif.NviReport.Props
import Verif.StaticSparse.Network

/-!
# C112: the comparison with the static network
-/

set_option linter.unusedSectionVars false

namespace Verif.NviReport

open Verif.SparseLouvain Verif.StaticSparse Verif.Scripts.Cluster
open Verif.Trans (Mat)
open Verif.Static (EigPair stationary degs twoM)
open Verif.Louvain (Sched Params exSched exPar)

variable {K : Type} [Field K] [LinearOrder K] [IsStrictOrderedRing K]

/-- **C112, partial.** If the temporal clusterings and those of the static network succeed, the saved temporal
result is the one that is saved without the comparison. -/
theorem C112_same_partial (nvi : Clusters → Clusters → Nat → K) (cfg : Cfg) (r : Rand K)
    (hh : Healthy { cfg with computeStatic := true } r) :
    ∃ with_ without : Res K,
      (worker nvi { cfg with computeStatic := true } r .empty).disk.res = some (.whole with_) ∧
      (worker nvi { cfg with computeStatic := false } r .empty).disk.res = some (.whole without) ∧
      with_.dynamic = without.dynamic ∧ without.static = none := by
  obtain ⟨n, hn⟩ := Option.ne_none_iff_exists'.1 hh.nodes
  obtain ⟨p, hp⟩ := unpack_ok hh.draws
  obtain ⟨q, hq⟩ := unpack_ok (wanted := true && r.adjacency) (draws := r.staticDraws) (by
    intro hb
    rw [Bool.and_eq_true] at hb
    exact hh.staticDraws rfl hb.2)
  simp only at hp
  unfold worker
  have e1 : (Disk.empty : Disk K).res = none := rfl
  have e2 : (Disk.empty : Disk K).tmp = none := rfl
  simp only [e1, e2, hn, Bool.false_and, Bool.or_false]
  rw [hp, hq]
  simp only [Bool.false_eq_true, if_false]
  cases hc : cfg.computeClustering with
  | true =>
    simp only [Bool.true_or, Bool.not_true, Bool.false_eq_true, if_false, List.foldl_append, List.foldl_cons, List.foldl_nil,
      Disk.write]
    exact ⟨_, _, rfl, rfl, rfl, rfl⟩
  | false =>
    have hp' : p = none := by
      rw [hc] at hp
      simpa using hp.symm
    subst hp'
    simp only [Bool.false_or, Bool.not_false, if_true]
    split
    · exact ⟨_, _, rfl, rfl, rfl, rfl⟩
    · simp only [List.foldl_append, List.foldl_cons, List.foldl_nil, Disk.write]
      exact ⟨_, _, rfl, rfl, rfl, rfl⟩

/-- **C112**, exactly when the result is saved: if the temporal clusterings succeed, the first run saves a result
exactly if those of the static network, when they are wanted and its adjacency matrix is there, do too. -/
theorem C112_saved_iff (nvi : Clusters → Clusters → Nat → K) (cfg : Cfg) (r : Rand K)
    (hh : Healthy { cfg with computeStatic := false } r) :
    (worker nvi cfg r .empty).disk.res ≠ none ↔
      (cfg.computeStatic = true → r.adjacency = true → r.staticDraws ≠ none ∧ r.staticDraws ≠ some []) := by
  obtain ⟨n, hn⟩ := Option.ne_none_iff_exists'.1 hh.nodes
  obtain ⟨p, hp⟩ := unpack_ok hh.draws
  simp only at hp
  unfold worker
  have e1 : (Disk.empty : Disk K).res = none := rfl
  have e2 : (Disk.empty : Disk K).tmp = none := rfl
  simp only [e1, e2, hn]
  rw [hp]
  by_cases hs : cfg.computeStatic = true ∧ r.adjacency = true
  · simp only [hs.1, hs.2, Bool.true_and, Bool.or_true, Bool.not_true, Bool.false_eq_true, if_false, if_true, true_imp_iff]
    match hd : r.staticDraws with
    | none => simp [unpack, Except.map, e1]
    | some [] => simp [unpack, Except.map, e1]
    | some (d :: ds) =>
      simp only [unpack, Except.map, List.foldl_append, List.foldl_cons, List.foldl_nil, Disk.write]
      simp
  · have hb : (cfg.computeStatic && r.adjacency) = false := by
      rw [← Bool.not_eq_true, Bool.and_eq_true]
      exact hs
    simp only [hb, Bool.or_false, Bool.false_eq_true, if_false]
    constructor
    · intro _ h1 h2
      exact absurd ⟨h1, h2⟩ hs
    · intro _
      split
      · simp [Disk.write]
      · simp [List.foldl_append, Disk.write]

/-- A network without contacts is refused. -/
theorem staticRepetitions_none (eig : Mat K → EigPair K) (n : Nat) (A : Mat K) (T : Verif.Csr.Csr K) (par : Params K)
    (hA : ∀ i < n, ∀ j < n, A i j = 0) (l : List (Sched × Nat)) (hl : l ≠ []) :
    staticRepetitions eig n A T par l = none := by
  match l, hl with
  | (sc, seed) :: l, _ =>
    have h0 : ∑ i ∈ Finset.range n, degs n (symmetrise A) i = 0 := by
      rw [Verif.Static.total_twoM]
      unfold twoM
      refine Finset.sum_eq_zero fun i hi => Finset.sum_eq_zero fun j hj => ?_
      rw [Finset.mem_range] at hi hj
      simp [symmetrise, hA i hi j hj, hA j hj i hi]
    unfold staticRepetitions staticRepetition staticSparse stationary
    simp only [h0, if_true]

/-- **C112 is violated**: for an interval without contacts, the comparison with the static network makes every
run fail before it saves anything, and the temporal clusterings are lost, those that would be saved
before the comparison included.  This holds for all temporal data, arguments, random numbers and
numbers of runs; without the comparison the first run saves the result. -/
theorem C112_lost_violated (nvi : Clusters → Clusters → Nat → K) (eig : Mat K → EigPair K) (n : Nat) (A : Mat K)
    (T : Verif.Csr.Csr K) (par : Params K) (hA : ∀ i < n, ∀ j < n, A i j = 0)
    (history : List (Cfg × Rand K)) (hh : ∀ e ∈ history, e.1.computeStatic = true ∧ e.2.adjacency = true ∧
      ∃ l : List (Sched × Nat), l.length = e.1.numRepeat ∧ e.2.staticDraws = staticRepetitions eig n A T par l) :
    runs nvi history .empty = .empty ∧ (∀ e ∈ history, (worker nvi e.1 e.2 .empty).failed ≠ none) ∧
      ∀ e ∈ history, Healthy { e.1 with computeStatic := false } e.2 →
        (worker nvi { e.1 with computeStatic := false } e.2 .empty).disk.res ≠ none := by
  have e1 : (Disk.empty : Disk K).res = none := rfl
  have e2 : (Disk.empty : Disk K).tmp = none := rfl
  have step : ∀ e ∈ history, (worker nvi e.1 e.2 .empty).disk = .empty ∧ (worker nvi e.1 e.2 .empty).failed ≠ none := by
    intro e he
    obtain ⟨h1, h2, l, _, h3⟩ := hh e he
    have h4 : ∃ x, unpack e.2.staticDraws = .error x := by
      rw [h3]
      cases l with
      | nil => exact ⟨_, rfl⟩
      | cons a l => rw [staticRepetitions_none eig n A T par hA _ (by simp)]; exact ⟨_, rfl⟩
    obtain ⟨x, h4⟩ := h4
    unfold worker
    simp only [e1, e2, h1, h2, h4, Bool.true_and, Bool.or_true, Bool.not_true, Bool.false_eq_true, if_false, if_true]
    cases e.2.nodes with
    | none => exact ⟨rfl, by simp⟩
    | some m =>
      dsimp only
      split
      · exact ⟨rfl, by simp⟩
      · exact ⟨rfl, by simp [Except.map]⟩
  refine ⟨?_, fun e he => (step e he).2, ?_⟩
  · clear hh
    induction history with
    | nil => rfl
    | cons e history ih =>
      unfold runs
      rw [List.foldl_cons, (step e List.mem_cons_self).1]
      exact ih fun e he => step e (List.mem_cons_of_mem _ he)
  · intro e he hhe
    exact (C112_saved_iff nvi { e.1 with computeStatic := false } e.2 hhe).2 fun h => by cases h

/-! ## Examples -/

/-- Arguments: two repetitions. -/
def cmpCfg : Cfg := ⟨true, true, true, 2, none⟩

/-- Three nodes, the temporal repetitions succeed; the static network is that of a matrix. -/
def cmpRand (s : Option (List (Draw ℚ))) : Rand ℚ :=
  ⟨some 3, true, some [⟨[{0, 1}, {2}], 1 / 4, 7⟩, ⟨[{0}, {1, 2}], 1 / 5, 8⟩], [0], s, [0]⟩

/-- The solver is not called for undirected networks. -/
def cmpEig : Mat ℚ → EigPair ℚ := fun _ => ⟨0, 0, fun _ => 0, fun _ => 0⟩

/-- Non-vacuity of `C112_lost_violated`: three nodes without contacts. -/
example : ∃ l : List (Sched × Nat), l.length = cmpCfg.numRepeat ∧
    (cmpRand (staticRepetitions cmpEig 3 (fun _ _ => 0) (store 3 Verif.Trans.eye) exPar l)).staticDraws = none ∧
    Healthy { cmpCfg with computeStatic := false }
      (cmpRand (staticRepetitions cmpEig 3 (fun _ _ => 0) (store 3 Verif.Trans.eye) exPar l)) := by
  refine ⟨[(exSched, 1), (exSched, 2)], rfl, ?_, ?_⟩
  · exact staticRepetitions_none _ _ _ _ _ (fun _ _ _ _ => rfl) _ (by simp)
  · exact ⟨by simp [cmpRand], by simp [cmpRand], by simp⟩

/-- Non-vacuity of `C112_same_partial`: the static clusterings of the triangle with one step. -/
example : ∃ l : List (Sched × Nat), l.length = cmpCfg.numRepeat ∧
    Healthy { cmpCfg with computeStatic := true } (cmpRand (staticRepetitions cmpEig 3 (fun i j => if i = j then 0 else 1)
      (store 3 fun i j => if i = j then 0 else 1 / 2) exPar l)) := by
  have h : ((staticRepetitions cmpEig 3 (fun i j => if i = j then 0 else 1)
      (store 3 fun i j => if i = j then 0 else 1 / 2) exPar [(exSched, 1), (exSched, 2)]).map List.length) = some 2 := by
    decide +kernel
  refine ⟨[(exSched, 1), (exSched, 2)], rfl, ⟨by simp [cmpRand], by simp [cmpRand], ?_⟩⟩
  intro _ _
  simp only [cmpRand]
  match hq : staticRepetitions cmpEig 3 (fun i j => if i = j then 0 else 1)
      (store 3 fun i j => if i = j then 0 else 1 / 2) exPar [(exSched, 1), (exSched, 2)] with
  | none => rw [hq] at h; simp at h
  | some [] => rw [hq] at h; simp at h
  | some (d :: ds) => simp

end Verif.NviReport
