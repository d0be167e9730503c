import Verif.FlowRuns.Run
import Verif.Flow.Props

/-!
# C84 and C85: stopped runs, and sessions on a `FlowIntegralClustering`
-/

namespace Verif.FlowRuns

open Verif.Partition Verif.Louvain

variable {K : Type} [Field K] [LinearOrder K] [IsStrictOrderedRing K]

/-! ### C84: violations -/

/-- Number of communities of a partition and its stability. -/
def summary (S : Nat → Nat → ℚ) (p : Part) : Nat × ℚ := (p.clusters.length, stability S p)

theorem exFresh : FreshDefault (exClu (singletons 3)) := by
  unfold FreshDefault mkClu
  rw [if_pos (by decide +kernel)]
  rfl

/-- **C84, violated.** A run stopped after its first meta loop: `compute_stability` returns 5, the
stability of two communities, while `partition` still has the three initial ones, of stability 3. -/
theorem C84_stale_violated : ∃ c : Clu ℚ, FreshDefault c ∧ ¬ sIsZero c.n c.S ∧ ∃ sc par j,
    let o := ((CluObj.new c).find sc par false (some j)).1
    o.stab = 5 ∧ summary c.S o.part = (2, 5) ∧ summary c.S o.shown = (3, 3) :=
  ⟨exClu (singletons 3), exFresh, by decide +kernel, exSched, exPar, 1, by decide +kernel, by decide +kernel,
    by decide +kernel⟩

/-- **C84, violated.** The same after an exception: a node without outgoing transitions makes the
aggregation fail, after the first meta loop has changed the object. -/
theorem C84_raised_violated : ∃ c : Clu ℚ, FreshDefault c ∧ ∃ sc par,
    let r := (CluObj.new c).find sc par false none
    r.2 = .raised .assertionError ∧ summary c.S r.1.part = (2, 5) ∧ summary c.S r.1.shown = (3, 3) := by
  refine ⟨{ n := 3, T := fun i j => if i = 2 ∨ j = 2 then 0 else 1 / 2, S := exS,
            part := removeEmpty ⟨3, singletons 3, dictOf (singletons 3)⟩ }, ?_, exSched, exPar,
    by decide +kernel, by decide +kernel, by decide +kernel⟩
  unfold FreshDefault mkClu
  rw [if_pos (by decide +kernel)]
  rfl

/-- **C84, violated.** With a supplied initial partition the recorded stabilities can go down: 5, then
1. -/
theorem C84_supplied_progress_violated : ∃ c : Clu ℚ, FreshFrom [{0, 1}, {2}] c ∧ ∃ sc par,
    ∃ k, ((CluObj.new c).find sc par true none).2 = .returned (some k) ∧
      (((CluObj.new c).find sc par true none).1.progress.map Prod.snd).head? = some 5 ∧
      (((CluObj.new c).find sc par true none).1.progress.map Prod.snd).getLast? = some 1 := by
  refine ⟨exClu [{0, 1}, {2}], ?_, exSched, exPar, 1, by decide +kernel, by decide +kernel, by decide +kernel⟩
  unfold FreshFrom mkClu
  rw [if_pos (by decide +kernel), mk'_clusterList]
  rfl

/-- **C84, violated.** With a negligible covariance the recorded progress does not end with the
result: two communities are recorded, and the result has one. -/
theorem C84_negligible_progress_violated : ∃ c : Clu ℚ, FreshDefault c ∧ ∃ sc par,
    ((CluObj.new c).find sc par true none).2 = .returned (some 0) ∧
      ((CluObj.new c).find sc par true none).1.progress.map (fun e => e.1.clusters.length) = [2] ∧
      ((CluObj.new c).find sc par true none).1.shown.clusters.length = 1 := by
  refine ⟨{ n := 2, T := fun _ _ => 1 / 2, S := fun i j => if i = j then 1 / 10 ^ 7 else -1 / 10 ^ 7,
            part := removeEmpty ⟨2, singletons 2, dictOf (singletons 2)⟩ }, ?_, exSched, exPar,
    by decide +kernel, by decide +kernel, by decide +kernel⟩
  unfold FreshDefault mkClu
  rw [if_pos (by decide +kernel)]
  rfl

/-- Non-vacuity for C84: a complete run of two meta loops that records three entries. -/
example : FreshDefault (exClu (singletons 3)) ∧ ¬ sIsZero 3 exS ∧
    ((CluObj.new (exClu (singletons 3))).find exSched exPar true none).2 = .returned (some 2) ∧
    ((CluObj.new (exClu (singletons 3))).find exSched exPar true none).1.progress.map Prod.snd = [3, 5, 5] :=
  ⟨exFresh, by decide +kernel, by decide +kernel, by decide +kernel⟩

/-! ### C85: sessions -/

theorem call_fields (f : FObj K) (c : Call K) : (f.call c).1.n = f.n ∧ (f.call c).1.obj = f.obj := by
  unfold FObj.call
  split
  · exact ⟨rfl, rfl⟩
  · split
    · exact ⟨rfl, rfl⟩
    · split
      · exact ⟨rfl, rfl⟩
      · simp only
        split
        · exact ⟨rfl, rfl⟩
        · exact ⟨rfl, rfl⟩
        · exact ⟨rfl, rfl⟩
        · split <;> exact ⟨rfl, rfl⟩

theorem session_fields (f : FObj K) (cs : List (Call K)) : (f.session cs).n = f.n ∧ (f.session cs).obj = f.obj := by
  induction cs generalizing f with
  | nil => exact ⟨rfl, rfl⟩
  | cons c cs ih =>
    obtain ⟨a, b⟩ := ih (f.call c).1
    obtain ⟨a', b'⟩ := call_fields f c
    exact ⟨a.trans a', b.trans b'⟩

/-- **C85.** A call has no effect on the results of other intervals: neither on their clustering
objects nor on their partitions, however it ends. -/
theorem C85_other_intervals (f : FObj K) (c : Call K) (j : Int) (hj : j ≠ c.k) :
    (f.call c).1.clustering.lookup j = f.clustering.lookup j ∧
      (f.call c).1.partition.lookup j = f.partition.lookup j := by
  unfold FObj.call
  split
  · exact ⟨rfl, rfl⟩
  · split
    · exact ⟨rfl, rfl⟩
    · split
      · exact ⟨rfl, rfl⟩
      · simp only
        split
        · exact ⟨rfl, rfl⟩
        · exact ⟨by rw [lookup_set, if_neg hj], rfl⟩
        · exact ⟨by rw [lookup_set, if_neg hj], rfl⟩
        · split
          · exact ⟨by rw [lookup_set, if_neg hj], by rw [lookup_set, if_neg hj]⟩
          · exact ⟨by rw [lookup_set, if_neg hj], rfl⟩

theorem call_known {f : FObj K} {c : Call K} {o : CluObj K} (h : f.clustering.lookup c.k = some o) :
    f.call c = (f, .returned none) := by
  unfold FObj.call
  rw [h]

theorem call_keeps {f : FObj K} {k : Int} {o : CluObj K} (h : f.clustering.lookup k = some o) (c : Call K) :
    (f.call c).1.clustering.lookup k = some o ∧ (f.call c).1.partition.lookup k = f.partition.lookup k := by
  by_cases hk : k = c.k
  · subst hk
    rw [call_known h]
    exact ⟨h, rfl⟩
  · obtain ⟨a, b⟩ := C85_other_intervals f c k hk
    exact ⟨a.trans h, b⟩

theorem session_keeps {f : FObj K} {k : Int} {o : CluObj K} (h : f.clustering.lookup k = some o)
    (cs : List (Call K)) :
    (f.session cs).clustering.lookup k = some o ∧ (f.session cs).partition.lookup k = f.partition.lookup k := by
  induction cs generalizing f with
  | nil => exact ⟨h, rfl⟩
  | cons c cs ih =>
    obtain ⟨a, b⟩ := call_keeps h c
    obtain ⟨a', b'⟩ := ih a
    exact ⟨a', b'.trans b⟩

/-- What the entries of the dictionaries are after a session. -/
structure Inv (f : FObj K) (done : List (Call K)) : Prop where
  known : ∀ k p, f.partition.lookup k = some p → ∃ o, f.clustering.lookup k = some o
  origin : ∀ k p, f.partition.lookup k = some p → ∃ c ∈ done, c.k = k ∧ ∃ T S clu m,
    inputAt f.obj k = some (T, S) ∧ mkClu f.n T (cut c.thr S) c.arg = .ok clu ∧
      findLouvain c.sc c.par clu = .ok (m, p)

theorem inv_new (n : Nat) (o : Flow.Obj K) : Inv (FObj.new n o) [] :=
  ⟨fun _ _ h => by simp [FObj.new] at h, fun _ _ h => by simp [FObj.new] at h⟩

/-- The result of a call for an interval without results. -/
theorem call_new {f : FObj K} {c : Call K} (h : f.clustering.lookup c.k = none) :
    ((f.call c).1 = f ∧ ∀ v, (f.call c).2 ≠ .returned v) ∨ (∃ T S clu, inputAt f.obj c.k = some (T, S) ∧ mkClu f.n T (cut c.thr S) c.arg = .ok clu ∧
      ∃ o, ((f.call c).1 = { f with clustering := setItem f.clustering c.k o } ∧
          ∀ v, (f.call c).2 ≠ .returned v) ∨
        ∃ m p, findLouvain c.sc c.par clu = .ok (m, p) ∧ (f.call c).2 = .returned (some m) ∧
          (f.call c).1 = { f with clustering := setItem f.clustering c.k o,
                                  partition := setItem f.partition c.k p }) := by
  unfold FObj.call
  rw [h]
  simp only
  split
  · exact Or.inl ⟨rfl, fun v => by simp⟩
  · rename_i T S hin
    split
    · exact Or.inl ⟨rfl, fun v => by simp⟩
    · rename_i clu hclu
      split
      · exact Or.inl ⟨rfl, fun v => by simp⟩
      · exact Or.inr ⟨T, S, clu, hin, hclu, _, Or.inl ⟨rfl, fun v => by simp⟩⟩
      · exact Or.inr ⟨T, S, clu, hin, hclu, _, Or.inl ⟨rfl, fun v => by simp⟩⟩
      · split
        · rename_i o' v hrun
          obtain ⟨m, ws, rfl, -, h3, rfl⟩ := find_returned hrun
          refine Or.inr ⟨T, S, clu, hin, hclu, _, Or.inr ⟨m, _, ?_, rfl, rfl⟩⟩
          have hcl : (CluObj.new clu).clu = clu := rfl
          rw [hcl] at h3
          rw [runWrites_eq c.sc c.par c.save, h3, (writes_done _ ws).2]
          simp only
          rw [lastPart_append]
          rfl
        · rename_i o' r hne hrun
          refine Or.inr ⟨T, S, clu, hin, hclu, o', Or.inl ⟨rfl, fun v hv => ?_⟩⟩
          exact hne v hv

theorem Inv.call {f : FObj K} {done : List (Call K)} (hi : Inv f done) (c : Call K) :
    Inv (f.call c).1 (done ++ [c]) := by
  obtain ⟨hn, ho⟩ := call_fields f c
  have old : ∀ {k p}, f.partition.lookup k = some p → ∃ c' ∈ done ++ [c], c'.k = k ∧ ∃ T S clu m,
      inputAt (f.call c).1.obj k = some (T, S) ∧ mkClu (f.call c).1.n T (cut c'.thr S) c'.arg = .ok clu ∧
        findLouvain c'.sc c'.par clu = .ok (m, p) := by
    intro k p hp
    obtain ⟨c', hc', h⟩ := hi.origin k p hp
    rw [ho, hn]
    exact ⟨c', List.mem_append_left _ hc', h⟩
  cases hk : f.clustering.lookup c.k with
  | some o =>
    have e := call_known hk
    refine ⟨fun k p hp => ?_, fun k p hp => ?_⟩
    · rw [e] at hp ⊢
      exact hi.known k p hp
    · have hp' : f.partition.lookup k = some p := by rw [e] at hp; exact hp
      exact old hp'
  | none =>
    rcases call_new hk with ⟨e, hno⟩ | ⟨T, S, clu, hin, hclu, o, ⟨e, -⟩ | ⟨m, p0, hrun, hret, e⟩⟩
    · refine ⟨fun k p hp => ?_, fun k p hp => ?_⟩
      · rw [e] at hp ⊢
        exact hi.known k p hp
      · have hp' : f.partition.lookup k = some p := by rw [e] at hp; exact hp
        exact old hp'
    · refine ⟨fun k p hp => ?_, fun k p hp => ?_⟩
      · rw [e] at hp ⊢
        obtain ⟨o', ho'⟩ := hi.known k p hp
        rw [lookup_set]
        split
        · exact ⟨_, rfl⟩
        · exact ⟨o', ho'⟩
      · have hp' : f.partition.lookup k = some p := by rw [e] at hp; exact hp
        exact old hp'
    · refine ⟨fun k p hp => ?_, fun k p hp => ?_⟩
      · rw [e] at hp ⊢
        simp only [lookup_set] at hp ⊢
        split
        · exact ⟨_, rfl⟩
        · rename_i hne
          rw [if_neg hne] at hp
          exact hi.known k p hp
      · by_cases hkk : k = c.k
        · subst hkk
          have hp' : p0 = p := by
            rw [e] at hp
            simp only [lookup_set, if_true, Option.some.injEq] at hp
            exact hp
          subst hp'
          rw [ho, hn]
          exact ⟨c, by simp, rfl, T, S, clu, m, hin, hclu, hrun⟩
        · have hp' : f.partition.lookup k = some p := by
            rw [e] at hp
            simp only [lookup_set, if_neg hkk] at hp
            exact hp
          exact old hp'

theorem Inv.session {f : FObj K} {done : List (Call K)} (hi : Inv f done) (cs : List (Call K)) :
    Inv (f.session cs) (done ++ cs) := by
  induction cs generalizing f done with
  | nil => rw [List.append_nil]; exact hi
  | cons c cs ih =>
    have := ih (hi.call c)
    rw [List.append_assoc] at this
    exact this

/-- The diagonal of the covariance is the stability of the default partition. -/
theorem diag_le {S : Nat → Nat → K} {c : Clu K} (h : FreshDefault c) (hS : c.S = S) :
    pairStability c.S c.part = ∑ v ∈ Finset.range c.n, S v v := by
  obtain ⟨-, p1, p2, p3⟩ := fresh_part h
  rw [← stability_pair _ _ p1.1]
  unfold stability clusteredAutocov
  rw [p3]
  unfold singletons
  rw [List.map_map, ← hS]
  symm
  exact (Finset.sum_congr rfl fun v _ => by simp [blockSum]).trans
    (Multiset.sum_coe ((List.range c.n).map _))

theorem trimmed_cut (thr : Option K) (S : Nat → Nat → K) : Trimmed thr S (cut thr S) := by
  intro i j
  cases thr with
  | none => exact ⟨fun _ => rfl, fun t h => by simp at h⟩
  | some t =>
    refine ⟨fun h => if_neg (not_lt.2 (h t rfl)), fun t' h h' => ?_⟩
    simp only [Option.some.injEq] at h
    subst h
    exact if_pos h'

/-- **C85, partial.** After any session of calls with the default initial partition, for any
intervals, limits, thresholds and random choices, some of which may have been stopped anywhere or
have failed, each partition stored is a valid partition of the nodes found by a call of the session
for its interval: it is no worse than the default partition for the covariance of that interval,
trimmed as that call asked, or everything is together if this covariance is negligible.  Missing:
supplied initial partitions (C29), and intervals without result, see the violations below. -/
theorem C85_stored_partial (n : Nat) (o : Flow.Obj K) (cs : List (Call K)) (hd : ∀ c ∈ cs, c.Default) (k : Int) (p : Part)
    (hp : ((FObj.new n o).session cs).partition.lookup k = some p) :
    ∃ c ∈ cs, c.k = k ∧ ∃ T S S', inputAt o k = some (T, S) ∧ Trimmed c.thr S S' ∧ Valid n p ∧
      (¬ sIsZero n S' → ∑ v ∈ Finset.range n, S' v v ≤ pairStability S' p) ∧
      (sIsZero n S' → ∀ u < n, ∀ v < n, Together p.clusters u v) := by
  have hi := (inv_new n o).session cs
  rw [List.nil_append] at hi
  obtain ⟨c, hc, hk, T, S, clu, m, h1, h2, h3⟩ := hi.origin k p hp
  obtain ⟨e1, e2⟩ := session_fields (FObj.new n o) cs
  rw [e2] at h1
  rw [e1, show c.arg = .none from hd c hc] at h2
  have hf : clu.n = n ∧ clu.T = T ∧ clu.S = cut c.thr S := by
    unfold mkClu at h2
    split at h2
    · split at h2
      · simp at h2
      · injection h2 with h2
        subst h2
        exact ⟨rfl, rfl, rfl⟩
    · simp at h2
  obtain ⟨f1, f2, f3⟩ := hf
  have hfresh : FreshDefault clu := by
    unfold FreshDefault
    rw [f1, f2, f3]
    exact h2
  have hn0 : 0 < n := by
    rcases Nat.eq_zero_or_pos n with h | h
    · unfold findLouvain at h3
      rw [if_pos (by rw [f1, h])] at h3
      simp at h3
    · exact h
  refine ⟨c, hc, hk, T, S, cut c.thr S, h1, trimmed_cut c.thr S, ?_⟩
  by_cases hz : sIsZero n (cut c.thr S)
  · obtain ⟨hcons, hnum, -⟩ := fresh_valid hfresh
    obtain ⟨q, g1, g2, g3, -⟩ := C29_negligible_covariance_partial c.sc c.par clu hcons hnum (by omega)
      (by rw [f1, f3]; exact hz)
    rw [h3] at g1
    simp only [Except.ok.injEq, Prod.mk.injEq] at g1
    obtain ⟨-, rfl⟩ := g1
    have hpe : p = removeEmpty ⟨n, [Finset.range n], dictOf [Finset.range n]⟩ := by
      unfold findLouvain at h3
      rw [if_neg (by omega), if_pos (by rw [f1, f3]; exact hz), mk'_clusterList] at h3
      simp only [Except.ok.injEq, Prod.mk.injEq] at h3
      rw [← h3.2, f1]
    refine ⟨⟨g2, by rw [hpe]; rfl, ?_⟩, fun h => absurd hz h, fun _ => by rw [← f1]; exact g3⟩
    intro cl hcl
    rw [hpe] at hcl
    unfold removeEmpty at hcl
    have := (List.mem_filter.1 hcl).2
    exact Finset.card_pos.1 (by simpa using this)
  · obtain ⟨a, b, d, e⟩ := C29_no_worse_from_default_partial c.sc c.par clu hfresh (by rw [f1, f3]; exact hz) m p h3
    rw [diag_le hfresh f3, f1, f3] at e
    exact ⟨⟨a, b.trans f1, d⟩, fun _ => e, fun h => absurd h hz⟩

/-- **C85.** A partition that has been stored is never changed by later calls. -/
theorem C85_frozen (n : Nat) (o : Flow.Obj K) (cs later : List (Call K)) (k : Int) (p : Part)
    (hp : ((FObj.new n o).session cs).partition.lookup k = some p) :
    ((FObj.new n o).session (cs ++ later)).partition.lookup k = some p := by
  have hi := (inv_new n o).session cs
  obtain ⟨q, hq⟩ := hi.known k p hp
  have : (FObj.new n o).session (cs ++ later) = ((FObj.new n o).session cs).session later := List.foldl_append
  rw [this, (session_keeps hq later).2, hp]

/-- **C85, partial.** The first call for an interval that exists, with the default initial partition
and not stopped, stores a partition and returns the number of meta loops, if the matrix of the
interval passes the check of the constructor and every node has outgoing transitions.  Missing: calls
after a stopped or failed run, see the violation below. -/
theorem C85_first_call_partial (f : FObj K) (c : Call K) (hd : c.Default) (hs : c.stop = none)
    (hk : f.clustering.lookup c.k = none) (hn : 0 < f.n) (T S : Nat → Nat → K) (hin : inputAt f.obj c.k = some (T, S))
    (hrows : rowsOk f.n T) (hT : ∀ i < f.n, 0 < rowSum f.n T i) :
    ∃ m p, (f.call c).2 = .returned (some m) ∧ (f.call c).1.partition.lookup c.k = some p ∧
      m ≤ c.par.nMeta + 1 := by
  obtain ⟨q, hq, -⟩ := mk'_none f.n false
  have hclu : mkClu f.n T (cut c.thr S) c.arg = .ok ⟨f.n, T, cut c.thr S, q⟩ := by
    rw [show c.arg = .none from hd]
    unfold mkClu
    rw [if_pos hrows, hq]
  have hfresh : FreshDefault (⟨f.n, T, cut c.thr S, q⟩ : Clu K) := by
    unfold FreshDefault
    rw [show c.arg = .none from hd] at hclu
    exact hclu
  obtain ⟨m, p, hrun⟩ := C29_returns_partial c.sc c.par _ hfresh hn hT
  have hb := (C30_meta_loops_bounded c.sc c.par (⟨f.n, T, cut c.thr S, q⟩ : Clu K)).2 m p hrun
  have hres : ((CluObj.new ⟨f.n, T, cut c.thr S, q⟩).find c.sc c.par c.save none).2 = .returned (some m) := by
    unfold CluObj.find
    have hcl : (CluObj.new (⟨f.n, T, cut c.thr S, q⟩ : Clu K)).clu = ⟨f.n, T, cut c.thr S, q⟩ := rfl
    rw [hcl]
    rw [runWrites_eq c.sc c.par c.save] at hrun
    simp only
    cases hr : (runWrites c.sc c.par c.save ⟨f.n, T, cut c.thr S, q⟩).2 with
    | error e => rw [hr] at hrun; simp at hrun
    | ok k' =>
      rw [hr] at hrun
      simp only [Except.ok.injEq, Prod.mk.injEq] at hrun
      rw [hrun.1]
  have hcall : f.call c = ({ f with
      clustering := setItem f.clustering c.k ((CluObj.new ⟨f.n, T, cut c.thr S, q⟩).find c.sc c.par c.save none).1,
      partition := setItem f.partition c.k
        ((CluObj.new ⟨f.n, T, cut c.thr S, q⟩).find c.sc c.par c.save none).1.shown }, .returned (some m)) := by
    unfold FObj.call
    rw [hk, hin]
    simp only
    rw [hclu, hs]
    simp only
    rcases hx : (CluObj.new ⟨f.n, T, cut c.thr S, q⟩).find c.sc c.par c.save none with ⟨o', r⟩
    rw [hx] at hres
    simp only at hres
    rw [hres]
  rw [hcall]
  exact ⟨m, _, rfl, by rw [lookup_set, if_pos rfl], hb⟩

/-- **C85.** A call that fails before the clustering exists (no such interval, arguments refused,
stopped before) leaves the object as it was, so that the call can be repeated. -/
theorem C85_early_failure (f : FObj K) (c : Call K) :
    (f.call c).1.clustering.lookup c.k = none → (f.call c).1 = f ∧ ∀ v, (f.call c).2 ≠ .returned v := by
  intro h
  cases hk : f.clustering.lookup c.k with
  | some o =>
    rw [call_known hk] at h
    simp only at h
    rw [hk] at h
    simp at h
  | none =>
    rcases call_new hk with ⟨e, hno⟩ | ⟨T, S, clu, hin, hclu, o, ⟨e, -⟩ | ⟨m, p0, hrun, hret, e⟩⟩
    · exact ⟨e, hno⟩
    · rw [e] at h
      simp [lookup_set] at h
    · rw [e] at h
      simp [lookup_set] at h

/-- **C85, violated.** Once a run for an interval has been stopped or has failed, the interval never
gets a partition: every later call for it does nothing and returns `None`. -/
theorem C85_stuck_violated (f : FObj K) (k : Int) (o : CluObj K) (hc : f.clustering.lookup k = some o)
    (hp : f.partition.lookup k = none) (later : List (Call K)) (c : Call K) (hk : c.k = k) :
    (f.session later).partition.lookup k = none ∧
      (f.session later).call c = (f.session later, .returned none) := by
  obtain ⟨a, b⟩ := session_keeps hc later
  subst hk
  exact ⟨b.trans hp, call_known a⟩

/-! ### Witnesses -/

/-- Transition from 0 and 1 to 2, and from 2 to 0. -/
def exT0 : Nat → Nat → ℚ := fun i j =>
  if i = 2 then (if j = 0 then 1 else 0) else if j = 2 then 1 else 0

/-- Two steps: `exT0`, then to any node. -/
def exInput : Flow.Input ℚ where
  n := 3
  sparse := false
  mats := some (.inter [exT0, fun _ _ => 1 / 3])
  p1 := none
  times := none
  grid := some [0, 1, 2]
  reverse := false
  rtol := 1 / 10 ^ 8
  mkl := false
  sqrt := id

/-- A call with default arguments. -/
def exCall (k : Int) : Call ℚ := ⟨k, .none, none, exPar, false, exSched, none⟩

/-- Run the calls on the object built from the input, and look at one of its partitions. -/
def exRun (inp : Flow.Input ℚ) (cs : List (Call ℚ)) (k : Int) : Option (Option (List (List Nat))) :=
  match Flow.construct inp with
  | .ok o => some ((((FObj.new inp.n o).session cs).partition.lookup k).map fun p => p.clusters.map listSet)
  | .error _ => none

/-- **C85, violated.** An index counted from the end: the two intervals of the grid are 0 and 1, and
`k=-2` clusters the covariance of interval 0, but looks for neighbours in the transition matrix of
interval 1; the result differs from that of `k=0`. -/
theorem C85_negative_index_violated : ∃ o, Flow.construct exInput = .ok o ∧ o.iList.length = 2 ∧
    (inputAt o (-2)).map (fun x => x.2 0 0) = (inputAt o 0).map (fun x => x.2 0 0) ∧
    (inputAt o (-2)).map (fun x => x.1 0 0) = (inputAt o 1).map (fun x => x.1 0 0) ∧
    (inputAt o (-2)).map (fun x => x.1 0 0) ≠ (inputAt o 0).map (fun x => x.1 0 0) ∧
    (((FObj.new 3 o).session [exCall 0]).partition.lookup 0).map (fun p => p.clusters.map listSet) =
      some [[0], [1], [2]] ∧
    (((FObj.new 3 o).session [exCall (-2)]).partition.lookup (-2)).map (fun p => p.clusters.map listSet) =
      some [[0, 1], [2]] := by
  have key : (match Flow.construct exInput with
    | .ok o => decide (o.iList.length = 2 ∧
      (inputAt o (-2)).map (fun x => x.2 0 0) = (inputAt o 0).map (fun x => x.2 0 0) ∧
      (inputAt o (-2)).map (fun x => x.1 0 0) = (inputAt o 1).map (fun x => x.1 0 0) ∧
      (inputAt o (-2)).map (fun x => x.1 0 0) ≠ (inputAt o 0).map (fun x => x.1 0 0) ∧
      (((FObj.new 3 o).session [exCall 0]).partition.lookup 0).map (fun p => p.clusters.map listSet) =
        some [[0], [1], [2]] ∧
      (((FObj.new 3 o).session [exCall (-2)]).partition.lookup (-2)).map (fun p => p.clusters.map listSet) =
        some [[0, 1], [2]])
    | .error _ => false) = true := by decide +kernel
  split at key
  · rename_i o ho
    exact ⟨o, ho, of_decide_eq_true key⟩
  · simp at key

/-- The object of the examples. -/
def exObj : FObj ℚ := match Flow.construct exInput with
  | .ok o => .new 3 o
  | .error _ => .new 3 ⟨fun _ => 0, [], [], [], [], []⟩

/-- **C85, violated.** The first call for interval 0 is stopped after its first meta loop; the
second, for which nothing is changed, would have found a partition on a new object. -/
theorem C85_stopped_violated : ∃ (f : FObj ℚ) (c : Call ℚ) (j : Nat),
    f.clustering = [] ∧ f.partition = [] ∧ (f.call c).2 = .returned (some 1) ∧
    (∃ o, (f.call { c with stop := some (.during j) }).1.clustering.lookup c.k = some o) ∧
    (f.call { c with stop := some (.during j) }).1.partition.lookup c.k = none ∧
    ∀ later : List (Call ℚ),
      (((f.call { c with stop := some (.during j) }).1.session later).call c).2 = .returned none ∧
      (((f.call { c with stop := some (.during j) }).1.session later).call c).1.partition.lookup c.k = none := by
  have h1 : (exObj.call (exCall 0)).2 = .returned (some 1) := by decide +kernel
  have h2 : ((exObj.call { exCall 0 with stop := some (.during 1) }).1.clustering.lookup 0).isSome := by
    decide +kernel
  have h3 : ((exObj.call { exCall 0 with stop := some (.during 1) }).1.partition.map Prod.fst) = [] := by
    decide +kernel
  have h4 : (exObj.call { exCall 0 with stop := some (.during 1) }).1.partition.lookup 0 = none := by
    rw [List.map_eq_nil_iff.1 h3]; rfl
  obtain ⟨o, ho⟩ := Option.isSome_iff_exists.1 h2
  have e1 : exObj.clustering = [] := by
    unfold exObj; split <;> rfl
  have e2 : exObj.partition = [] := by
    unfold exObj; split <;> rfl
  refine ⟨exObj, exCall 0, 1, e1, e2, h1, ⟨o, ho⟩, h4, fun later => ?_⟩
  obtain ⟨a, b⟩ := C85_stuck_violated _ 0 o ho h4 later (exCall 0) rfl
  rw [b]
  exact ⟨rfl, a⟩

/-- A `FlowIntegralClustering` over one step whose covariance and matrix are those of the examples
of C29. -/
def exBad : FObj ℚ := .new 3 ⟨fun _ => 1 / 3, [exT], [0, 1], [0, 1], [0, 1], [exS]⟩

/-- **C85, violated.** The arguments of a second call for an interval are ignored: with the initial
communities {0, 1} and {2} of stability 5 the first call ends with stability 1; a second call with the
default initial partition, which on a new object reaches stability 5, changes nothing and returns
`None`. -/
theorem C85_repeat_violated : ∃ (f : FObj ℚ) (a b : Call ℚ), a.k = b.k ∧ b.Default ∧
    f.clustering = [] ∧ f.partition = [] ∧
    ((f.call a).1.partition.lookup a.k).map (stability exS) = some 1 ∧
    ((f.call b).1.partition.lookup a.k).map (stability exS) = some 5 ∧
    (((f.call a).1.call b).1.partition.lookup a.k).map (stability exS) = some 1 ∧
    ((f.call a).1.call b).2 = .returned none := by
  refine ⟨exBad, { exCall 0 with arg := .clusterList [{0, 1}, {2}] }, exCall 0, rfl, rfl, rfl, rfl,
    by decide +kernel, by decide +kernel, by decide +kernel, by decide +kernel⟩

/-- **C85.** For an index from 0 on, the inputs are those of `Verif.Flow`: transition matrix and
covariance of the same interval (C47). -/
theorem C85_inputs (inp : Flow.Input K) (o : Flow.Obj K) (hs : inp.sparse = false) (k : Nat) (T S : Nat → Nat → K) :
    inputAt o k = some (T, S) ↔ Flow.clusterInput inp o k = .ok (some T, S) := by
  have hpy : ∀ {α : Type} (l : List α) (m : Nat), pyIndex l.length m = if m < l.length then some m else none := by
    intro α l m
    unfold pyIndex
    rw [if_pos (by omega)]
    by_cases h : m < l.length
    · rw [if_pos h, if_pos (by omega)]; simp
    · rw [if_neg h, if_neg (by omega)]
  unfold inputAt Flow.clusterInput
  rw [hs]
  simp only [Bool.false_eq_true, if_false]
  have hk1 : ((k : Int) + 1) = ((k + 1 : Nat) : Int) := by omega
  rw [hk1, hpy, hpy]
  by_cases hg : k + 1 < o.kGrid.length
  · rw [if_pos hg]
    simp only
    rw [List.getElem?_eq_getElem hg]
    simp only
    generalize o.kGrid[k + 1] = m
    have htl : (match pyIndex o.tList.length ((m : Int) - 1) with
        | none => none
        | some t => o.tList[t]?) = if m = 0 then o.tList.getLast? else o.tList[m - 1]? := by
      by_cases hm : m = 0
      · rw [if_pos hm, List.getLast?_eq_getElem?]
        unfold pyIndex
        rw [if_neg (by omega)]
        by_cases hl : o.tList.length = 0
        · rw [if_neg (by omega)]
          simp only
          rw [List.getElem?_eq_none (by omega)]
        · rw [if_pos (by omega)]
          simp only
          congr 1
          omega
      · rw [if_neg hm, show (m : Int) - 1 = ((m - 1 : Nat) : Int) by omega, hpy]
        by_cases hl : m - 1 < o.tList.length
        · rw [if_pos hl]
        · rw [if_neg hl, List.getElem?_eq_none (by omega)]
    cases hp : pyIndex o.tList.length ((m : Int) - 1) with
    | none =>
      rw [hp] at htl
      simp only at htl ⊢
      rw [← htl]
      simp
    | some t =>
      rw [hp] at htl
      simp only at htl ⊢
      rw [← htl]
      cases ht : o.tList[t]? with
      | none => simp
      | some T' =>
        by_cases hi : k < o.iList.length
        · rw [if_pos hi]
          simp [List.getElem?_eq_getElem hi]
        · rw [if_neg hi, List.getElem?_eq_none (by omega)]
          simp
  · rw [if_neg hg, List.getElem?_eq_none (by omega)]
    simp

/-- Non-vacuity for C85: a session with a stopped call, a call for an interval that does not exist,
and complete calls for two intervals; both get partitions. -/
example : (exRun exInput [{ exCall 0 with stop := some .beforeStore }, exCall 5, exCall 0, exCall 1] 0 =
      some (some [[0], [1], [2]])) ∧
    (exRun exInput [{ exCall 0 with stop := some .beforeStore }, exCall 5, exCall 0, exCall 1] 1 =
      some (some [[0, 1], [2]])) ∧
    (∀ c ∈ [exCall 0, exCall 1], c.Default) ∧ rowsOk 3 exT0 ∧ ∀ i < 3, 0 < rowSum 3 exT0 i := by
  refine ⟨by decide +kernel, by decide +kernel, ?_, by decide +kernel, by decide +kernel⟩
  intro c hc
  simp only [List.mem_cons, List.not_mem_nil, or_false] at hc
  rcases hc with rfl | rfl <;> rfl

end Verif.FlowRuns
