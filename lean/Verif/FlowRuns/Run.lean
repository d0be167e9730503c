import Verif.FlowRuns.Lemmas

/-!
# C84: the partition of the object during a run, and the saved progress
-/

namespace Verif.FlowRuns

open Verif.Partition Verif.Louvain

variable {K : Type} [Field K] [LinearOrder K] [IsStrictOrderedRing K]

/-- Saved pairs of the writes, starting from the partition `p`. -/
def snaps (S : Nat → Nat → K) (p : Part) : List Write → List (Part × K)
  | [] => []
  | .setPart q :: ws => snaps S q ws
  | .save :: ws => (p, stability S p) :: snaps S p ws
  | .finish :: ws => snaps S p ws

theorem writes_progress (o : CluObj K) (ws : List Write) :
    (o.writes ws).progress = o.progress ++ snaps o.S o.part ws := by
  induction ws generalizing o with
  | nil => simp [CluObj.writes, snaps]
  | cons w ws ih =>
    rw [writes_cons, ih]
    cases w with
    | setPart q => rfl
    | finish => rfl
    | save => simp [CluObj.write, snaps, CluObj.stab]

theorem snaps_finish (S : Nat → Nat → K) (p : Part) (ws : List Write) :
    snaps S p (ws ++ [.finish]) = snaps S p ws := by
  induction ws generalizing p with
  | nil => rfl
  | cons w ws ih => cases w <;> simp [snaps, ih]

theorem snaps_loops (S : Nat → Nat → K) (p : Part) (ps : List Part) :
    snaps S p (ps.flatMap fun q => .setPart q :: saveIf true) = ps.map fun q => (q, stability S q) := by
  induction ps generalizing p with
  | nil => rfl
  | cons q ps ih =>
    rw [List.flatMap_cons, List.map_cons, ← ih q]
    rfl

theorem lastPart_loops (p : Part) (save : Bool) (ps : List Part) :
    lastPart p (ps.flatMap fun q => .setPart q :: saveIf save) = ps.getLastD p := by
  induction ps generalizing p with
  | nil => rfl
  | cons q ps ih =>
    rw [List.flatMap_cons, lastPart_append, show lastPart p (Write.setPart q :: saveIf save) = q by
      cases save <;> rfl, ih, List.getLastD_cons]

theorem grows_loops (S : Nat → Nat → K) (n : Nat) (p : Part) (save : Bool) (ps : List Part)
    (h : Grows S n p (ps.flatMap fun q => .setPart q :: saveIf save)) :
    (p :: ps).Pairwise (fun a b => Coarser a b ∧ stability S a ≤ stability S b) ∧ ∀ q ∈ ps, Valid n q := by
  induction ps generalizing p with
  | nil => simp
  | cons q ps ih =>
    rw [List.flatMap_cons, List.cons_append] at h
    obtain ⟨h1, h2, h3, h4⟩ := h
    obtain ⟨h5, h6⟩ := ih q ((grows_saveIf ..).1 h4)
    refine ⟨List.pairwise_cons.2 ⟨fun r hr => ?_, h5⟩, fun r hr => ?_⟩
    · rcases List.mem_cons.1 hr with rfl | hr
      · exact ⟨h2, h3⟩
      · have := (List.pairwise_cons.1 h5).1 r hr
        exact ⟨coarser_trans h2 this.1, le_trans h3 this.2⟩
    · rcases List.mem_cons.1 hr with rfl | hr
      · exact h1
      · exact h6 r hr

theorem find_stop (o : CluObj K) (sc : Sched) (par : Params K) (save : Bool) (j : Nat) :
    (o.find sc par save (some j)).1 = o.writes ((runWrites sc par save o.clu).1.take j) := rfl

theorem find_done (o : CluObj K) (sc : Sched) (par : Params K) (save : Bool) :
    (o.find sc par save none).1 = o.writes (runWrites sc par save o.clu).1 := by
  unfold CluObj.find
  simp only
  split <;> rfl

theorem find_returned {o o' : CluObj K} {sc : Sched} {par : Params K} {save : Bool} {v : Option Nat}
    (h : o.find sc par save none = (o', .returned v)) :
    ∃ k ws, v = some k ∧ baseWrites sc par save o.clu = (ws, .ok k) ∧
      runWrites sc par save o.clu = (ws ++ [.finish], .ok k) ∧ o' = o.writes (ws ++ [.finish]) := by
  unfold CluObj.find at h
  simp only at h
  unfold runWrites at h ⊢
  rcases hb : baseWrites sc par save o.clu with ⟨ws, r⟩
  rw [hb] at h
  cases r with
  | error e => simp at h
  | ok k =>
    simp only [Prod.mk.injEq, Outcome.returned.injEq] at h
    exact ⟨k, ws, h.2.symm, rfl, rfl, h.1.symm⟩

theorem writes_done (o : CluObj K) (ws : List Write) :
    (o.writes (ws ++ [.finish])).part = lastPart o.part ws ∧ (o.writes (ws ++ [.finish])).shown = lastPart o.part ws := by
  rw [writes_append]
  exact ⟨(writes_fields o ws).2.2.2, (writes_fields o ws).2.2.2⟩

/-- **C84, partial.** A run on a new clustering with the default initial partition may be stopped
at any moment: the communities held by the object then form a valid partition, the value of
`compute_stability` is their stability, and the later the run is stopped, the coarser and the better
they are.  Missing: supplied initial partitions and negligible covariances, see the violations
below. -/
theorem C84_stopped_partial (sc : Sched) (par : Params K) (save : Bool) (c : Clu K) (h : FreshDefault c)
    (hS : ¬ sIsZero c.n c.S) (i j : Nat) (hij : i ≤ j) :
    let a := ((CluObj.new c).find sc par save (some i)).1
    let b := ((CluObj.new c).find sc par save (some j)).1
    Valid c.n b.part ∧ b.stab = pairStability c.S b.part ∧ Coarser a.part b.part ∧ a.stab ≤ b.stab ∧
      ∑ v ∈ Finset.range c.n, c.S v v ≤ b.stab := by
  intro a b
  have hg := run_grows sc par save c h hS
  have hv := fresh_valid h
  have hpart : ∀ m, ((CluObj.new c).find sc par save (some m)).1.part =
      lastPart c.part ((runWrites sc par save c).1.take m) := fun m => by
    rw [find_stop]; exact (writes_fields _ _).2.2.2
  have hstab : ∀ m, ((CluObj.new c).find sc par save (some m)).1.stab =
      stability c.S (lastPart c.part ((runWrites sc par save c).1.take m)) := fun m => by
    unfold CluObj.stab
    rw [hpart m, find_stop, (writes_fields _ _).2.2.1]
    rfl
  obtain ⟨a1, a2, a3, a4⟩ := grows_take c.S c.n c.part _ hv hg i
  obtain ⟨b1, b2, b3, b4⟩ := grows_take c.S c.n c.part _ hv hg j
  obtain ⟨d1, d2, d3, d4⟩ := grows_take c.S c.n _ _ a1 a4 (j - i)
  have hsplit : (runWrites sc par save c).1.take j =
      (runWrites sc par save c).1.take i ++ ((runWrites sc par save c).1.drop i).take (j - i) := by
    rw [← List.take_add, Nat.add_sub_cancel' hij]
  rw [← lastPart_append, ← hsplit] at d1 d2 d3
  refine ⟨by rw [hpart]; exact b1, by rw [hstab, hpart]; exact stability_pair _ _ b1.1.1,
    by rw [hpart, hpart]; exact d2, by rw [hstab, hstab]; exact d3, ?_⟩
  rw [hstab]
  refine le_trans (le_of_eq ?_) b3
  obtain ⟨-, p1, p2, p3⟩ := fresh_part h
  unfold stability clusteredAutocov
  rw [p3]
  unfold singletons
  rw [List.map_map]
  exact (Finset.sum_congr rfl fun v _ => by simp [blockSum]).trans
    (Multiset.sum_coe ((List.range c.n).map _))

/-- **C84.** Whatever the object and the run, the attribute `partition` changes only with the last
step of a run that completes; it is then the partition whose stability `compute_stability` returns.
A run that raises leaves it as it was, and so does a run stopped earlier. -/
theorem C84_attribute (sc : Sched) (par : Params K) (save : Bool) (o : CluObj K) :
    (∀ e, (o.find sc par save none).2 = .raised e → (o.find sc par save none).1.shown = o.shown) ∧
      (∀ v, (o.find sc par save none).2 = .returned v → v.isSome ∧
        (o.find sc par save none).1.shown = (o.find sc par save none).1.part) ∧
      ∀ j, (o.find sc par save (some j)).1.shown = o.shown ∨
        (o.find sc par save (some j)).1 = (o.find sc par save none).1 := by
  have hb := base_no_finish sc par save o.clu
  have hr : runWrites sc par save o.clu = match baseWrites sc par save o.clu with
      | (ws, .ok k) => (ws ++ [.finish], .ok k)
      | (ws, .error e) => (ws, .error e) := rfl
  rcases hw : baseWrites sc par save o.clu with ⟨ws, r⟩
  rw [hw] at hb hr
  cases r with
  | error e =>
    simp only at hr
    refine ⟨fun e' _ => ?_, fun v hv => ?_, fun j => Or.inl ?_⟩
    · rw [find_done, hr]
      exact writes_shown _ _ hb
    · unfold CluObj.find at hv
      simp [hr] at hv
    · rw [find_stop, hr]
      exact writes_shown _ _ fun hm => hb (List.mem_of_mem_take hm)
  | ok k =>
    simp only at hr
    refine ⟨fun e' he => ?_, fun v hv => ⟨?_, ?_⟩, fun j => ?_⟩
    · unfold CluObj.find at he
      simp [hr] at he
    · unfold CluObj.find at hv
      simp only [hr, Outcome.returned.injEq] at hv
      rw [← hv]; rfl
    · rw [find_done, hr, (writes_done o ws).1, (writes_done o ws).2]
    · rw [find_stop, find_done, hr]
      simp only
      by_cases hj : j ≤ ws.length
      · refine Or.inl (writes_shown _ _ fun hm => hb ?_)
        rw [List.take_append_of_le_length hj] at hm
        exact List.mem_of_mem_take hm
      · right
        rw [List.take_of_length_le (by simp; omega)]

/-- **C84.** Saving the progress has no influence on the run: same value or exception, same
partition. -/
theorem C84_save_harmless (sc : Sched) (par : Params K) (o : CluObj K) :
    (o.find sc par true none).2 = (o.find sc par false none).2 ∧
      ∀ k, (o.find sc par false none).2 = .returned (some k) →
        (o.find sc par true none).1.shown = (o.find sc par false none).1.shown ∧
        findLouvain sc par o.clu = .ok (k, (o.find sc par true none).1.shown) := by
  have key : ∀ save, (o.find sc par save none).2 = match findLouvain sc par o.clu with
      | .ok (k, _) => .returned (some k)
      | .error e => .raised e := by
    intro save
    rw [runWrites_eq sc par save]
    unfold CluObj.find
    simp only
    cases (runWrites sc par save o.clu).2 <;> rfl
  have shown : ∀ save k, (o.find sc par save none).2 = .returned (some k) →
      findLouvain sc par o.clu = .ok (k, (o.find sc par save none).1.shown) := by
    intro save k hk
    obtain ⟨k', ws, h1, h2, h3, h4⟩ := find_returned (o' := (o.find sc par save none).1) (v := some k) (by rw [← hk])
    rw [runWrites_eq sc par save, h3, h4]
    simp only [Option.some.injEq] at h1
    subst h1
    simp only
    rw [(writes_done o ws).2, lastPart_append]
    rfl
  refine ⟨by rw [key, key], fun k hk => ?_⟩
  have h1 := shown false k hk
  have h2 := shown true k (by rw [key, ← key false, hk])
  rw [h1] at h2
  simp only [Except.ok.injEq, Prod.mk.injEq, true_and] at h2
  exact ⟨h2.symm, by rw [h1, h2]⟩

/-- **C84, partial.** A complete run on a new clustering with the default initial partition records
its progress: the initial partition and then one entry per meta loop, the last one being the result.
Each entry is a valid partition with its stability, and they get coarser and better.  Missing:
supplied initial partitions and negligible covariances, see the violations below. -/
theorem C84_progress_partial (sc : Sched) (par : Params K) (c : Clu K) (h : FreshDefault c)
    (hS : ¬ sIsZero c.n c.S) (o : CluObj K) (k : Nat)
    (hrun : (CluObj.new c).find sc par true none = (o, .returned (some k))) :
    o.progress.length = k + 1 ∧ o.progress.head?.map Prod.fst = some c.part ∧
      o.progress.getLast?.map Prod.fst = some o.shown ∧
      (∀ e ∈ o.progress, Valid c.n e.1 ∧ e.2 = pairStability c.S e.1) ∧
      o.progress.Pairwise fun a b => Coarser a.1 b.1 ∧ a.2 ≤ b.2 := by
  obtain ⟨k', ws, h1, h2, h3, rfl⟩ := find_returned hrun
  simp only [Option.some.injEq] at h1
  subst h1
  have hg := run_grows sc par true c h hS
  have hcl : (CluObj.new c).clu = c := rfl
  rw [hcl] at h2 h3
  have hws : ∃ ps : List Part, ws = saveIf true ++ ps.flatMap (fun p => .setPart p :: saveIf true) ∧ ps.length = k := by
    unfold baseWrites at h2
    split at h2
    · simp at h2
    · rw [fresh_copy h] at h2
      simp only [Prod.mk.injEq] at h2
      obtain ⟨ps, ex, -, e2, e3⟩ := metaWrites_shape sc par true c.T c.S (par.nMeta + 3) 0 1 false c.part c
      obtain ⟨rfl, e4⟩ := e3 k h2.2
      rw [e2] at h2
      exact ⟨ps, by rw [← h2.1]; simp, by omega⟩
  obtain ⟨ps, rfl, hlen⟩ := hws
  rw [h3] at hg
  simp only [List.append_assoc] at hg
  have hg' : Grows c.S c.n c.part (ps.flatMap (fun q => .setPart q :: saveIf true)) := by
    have := (grows_saveIf c.S c.n c.part true _).1 hg
    have := (grows_take c.S c.n c.part _ (fresh_valid h) this 0).2.2.2
    clear hg h2 h3 hrun
    revert this
    generalize (ps.flatMap (fun q => Write.setPart q :: saveIf true)) = l
    simp only [List.take_zero, List.drop_zero, lastPart]
    generalize c.part = p
    intro hh
    induction l generalizing p with
    | nil => trivial
    | cons w l ih =>
      cases w with
      | setPart q => exact ⟨hh.1, hh.2.1, hh.2.2.1, ih q hh.2.2.2⟩
      | save => exact ih p hh
      | finish => exact ih p hh
  obtain ⟨hp, hval⟩ := grows_loops c.S c.n c.part true ps hg'
  have hprog : ((CluObj.new c).writes (saveIf true ++ ps.flatMap (fun p => .setPart p :: saveIf true) ++ [.finish])).progress =
      (c.part :: ps).map fun q => (q, stability c.S q) := by
    rw [writes_progress, snaps_finish]
    change [] ++ ((c.part, stability c.S c.part) ::
      snaps c.S c.part (ps.flatMap fun p => .setPart p :: saveIf true)) = _
    rw [snaps_loops]
    rfl
  have hv : ∀ q ∈ c.part :: ps, Valid c.n q := by
    intro q hq
    rcases List.mem_cons.1 hq with rfl | hq
    · exact fresh_valid h
    · exact hval q hq
  rw [hprog]
  refine ⟨by simp [hlen], by simp, ?_, ?_, ?_⟩
  · rw [(writes_done _ _).2, lastPart_append, lastPart_saveIf]
    change _ = some (lastPart c.part _)
    rw [lastPart_loops, List.getLast?_map, List.getLast?_cons]
    simp
  · intro e he
    obtain ⟨q, hq, rfl⟩ := List.mem_map.1 he
    exact ⟨hv q hq, stability_pair _ _ (hv q hq).1.1⟩
  · exact List.pairwise_map.2 hp

end Verif.FlowRuns
