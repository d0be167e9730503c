import Verif.Parallel.Model
import Verif.Static.Multi

/-!
# C78: clustering with a pool of processes
-/

set_option linter.dupNamespace false
set_option linter.unusedSectionVars false

namespace Verif.Parallel

open Verif.Louvain (Sched Params Clu rowSum rowsOk sIsZero exSched exPar listSet)
open Verif.Autocov Verif.SparseLouvain Verif.Csr Verif.Partition
open Verif.Static (pairSum runMulti oneRun C74_results)

variable {K : Type} [Field K] [LinearOrder K] [IsStrictOrderedRing K]

/-! ## The pool -/

/-- The answer of a task, if it has one. -/
def answer {β : Type} : Except SErr β → Option β
  | .ok b => some b
  | .error _ => none

theorem foldl_finish {α β : Type} (f : α → Except SErr β) (tasks : List α)
    (h : ∀ a ∈ tasks, ∃ b, f a = .ok b) (l : List Nat) (s : Pool β)
    (hl : s.answers.length = tasks.length) (hf : s.failed = none) :
    (l.foldl (finish f tasks) s).failed = none ∧
      (l.foldl (finish f tasks) s).answers.length = tasks.length ∧
      ∀ i a, tasks[i]? = some a → (l.foldl (finish f tasks) s).answers[i]? =
        if i ∈ l then some (answer (f a)) else s.answers[i]? := by
  induction l generalizing s with
  | nil => exact ⟨hf, hl, fun i a _ => by simp⟩
  | cons j l ih =>
    rw [List.foldl_cons]
    cases hj : tasks[j]? with
    | none =>
      have hs : finish f tasks s j = s := by unfold finish; rw [hj]
      rw [hs]
      refine ⟨(ih s hl hf).1, (ih s hl hf).2.1, fun i a hi => ?_⟩
      rw [(ih s hl hf).2.2 i a hi]
      have hij : i ≠ j := by rintro rfl; rw [hj] at hi; simp at hi
      simp [hij]
    | some c =>
      obtain ⟨b, hb⟩ := h c (List.mem_of_getElem? hj)
      have hs : finish f tasks s j = { s with answers := s.answers.set j (some b) } := by
        unfold finish; rw [hj]; simp only [hb]
      rw [hs]
      have := ih { s with answers := s.answers.set j (some b) } (by simpa using hl) hf
      refine ⟨this.1, this.2.1, fun i a hi => ?_⟩
      rw [this.2.2 i a hi]
      by_cases hil : i ∈ l
      · simp [hil]
      · by_cases hij : i = j
        · subst hij
          rw [hj] at hi
          injection hi with hi
          subst hi
          have hlt : i < s.answers.length := by
            rw [hl]; exact (List.getElem?_eq_some_iff.1 hj).1
          simp [hil, hb, answer, hlt]
        · simp [hil, hij, Ne.symm hij]

/-- The pool returns the answers in the order of the tasks, whatever the order of execution. -/
theorem poolMap_ok {α β : Type} (f : α → Except SErr β) (tasks : List α)
    (h : ∀ a ∈ tasks, ∃ b, f a = .ok b) (order : List Nat)
    (ho : order.Perm (List.range tasks.length)) :
    poolMap f tasks order = .ok (tasks.filterMap fun a => answer (f a)) := by
  obtain ⟨h1, h2, h3⟩ := foldl_finish f tasks h order ⟨tasks.map fun _ => none, none⟩ (by simp) rfl
  unfold poolMap
  simp only
  rw [h1]
  have hans : (order.foldl (finish f tasks) ⟨tasks.map fun _ => none, none⟩).answers =
      tasks.map fun a => answer (f a) := by
    apply List.ext_getElem?
    intro i
    cases hi : tasks[i]? with
    | none =>
      have := List.getElem?_eq_none_iff.1 hi
      rw [List.getElem?_eq_none (by omega), List.getElem?_eq_none (by simpa using this)]
    | some a =>
      have hlt := (List.getElem?_eq_some_iff.1 hi).1
      rw [h3 i a hi, if_pos (ho.mem_iff.2 (List.mem_range.2 hlt)), List.getElem?_map, hi]
      rfl
  rw [hans, List.filterMap_map]
  rfl

/-- If a task fails, so does the call, with the exception of one of the failing tasks. -/
theorem poolMap_fails {α β : Type} (f : α → Except SErr β) (tasks : List α) (order : List Nat)
    (ho : order.Perm (List.range tasks.length)) (h : ∃ a ∈ tasks, ∃ e, f a = .error e) :
    ∃ a ∈ tasks, ∃ e, f a = .error e ∧ poolMap f tasks order = .error e := by
  have key : ∀ (l : List Nat) (s : Pool β),
      (∀ e, s.failed = some e → ∃ a ∈ tasks, f a = .error e) →
      (∀ e, (l.foldl (finish f tasks) s).failed = some e → ∃ a ∈ tasks, f a = .error e) ∧
      ((s.failed.isSome ∨ ∃ i ∈ l, ∃ a e, tasks[i]? = some a ∧ f a = .error e) →
        (l.foldl (finish f tasks) s).failed.isSome) := by
    intro l
    induction l with
    | nil =>
      intro s hs
      refine ⟨hs, ?_⟩
      rintro (h | ⟨i, hi, _⟩)
      · exact h
      · simp at hi
    | cons j l ih =>
      intro s hs
      rw [List.foldl_cons]
      have hs' : ∀ e, (finish f tasks s j).failed = some e → ∃ a ∈ tasks, f a = .error e := by
        intro e he
        unfold finish at he
        split at he
        · exact hs e he
        · rename_i a ha
          split at he
          · rename_i e' he'
            simp only [Option.some.injEq] at he
            cases hsf : s.failed with
            | none =>
              rw [hsf] at he
              simp only [Option.getD_none] at he
              exact ⟨a, List.mem_of_getElem? ha, by rw [← he, he']⟩
            | some e2 =>
              rw [hsf] at he
              simp only [Option.getD_some] at he
              subst he
              exact hs e2 hsf
          · exact hs e he
      refine ⟨(ih _ hs').1, fun hh => (ih _ hs').2 ?_⟩
      rcases hh with hh | ⟨i, hi, a, e, ha, he⟩
      · left
        unfold finish
        split
        · exact hh
        · split
          · rfl
          · exact hh
      · rcases List.mem_cons.1 hi with rfl | hi
        · left
          unfold finish
          rw [ha]
          simp only [he]
          rfl
        · exact Or.inr ⟨i, hi, a, e, ha, he⟩
  obtain ⟨k1, k2⟩ := key order ⟨tasks.map fun _ => none, none⟩ (by simp)
  obtain ⟨a, ha, e, he⟩ := h
  obtain ⟨i, hi⟩ := List.mem_iff_getElem?.1 ha
  have hlt := (List.getElem?_eq_some_iff.1 hi).1
  have hsome := k2 (Or.inr ⟨i, ho.mem_iff.2 (List.mem_range.2 hlt), a, e, hi, he⟩)
  obtain ⟨e', he'⟩ := Option.isSome_iff_exists.1 hsome
  obtain ⟨b, hb, hbe⟩ := k1 e' he'
  refine ⟨b, hb, e', hbe, ?_⟩
  unfold poolMap
  simp only
  rw [he']

/-! ## The statements -/

/-- What is asked of a list of results: one per seed, in the order of the seeds, each beside its
seed, and each related to its seed by `P`. -/
def OnePerSeed (P : Nat → List (Finset Nat) → K → Prop) (seeds : List Nat)
    (rs : List (List (Finset Nat) × K × Nat)) : Prop :=
  rs.map (fun r => r.2.2) = seeds ∧ ∀ r ∈ rs, P r.2.2 r.1 r.2.1

theorem results_of_tasks (f : Nat → Except SErr (List (Finset Nat) × K × Nat))
    (P : Nat → List (Finset Nat) → K → Prop) (seeds order : List Nat) (hs : seeds ≠ [])
    (ho : order.Perm (List.range seeds.length))
    (h : ∀ s ∈ seeds, ∃ cl g, f s = .ok (cl, g, s) ∧ P s cl g) :
    ∃ rs, unzip (poolMap f seeds order) = .results rs ∧ OnePerSeed P seeds rs := by
  rw [poolMap_ok f seeds (fun s hs => by obtain ⟨cl, g, h, _⟩ := h s hs; exact ⟨_, h⟩) order ho]
  have key : ∀ l : List Nat, (∀ s ∈ l, ∃ cl g, f s = .ok (cl, g, s) ∧ P s cl g) →
      OnePerSeed P l (l.filterMap fun a => answer (f a)) := by
    intro l
    induction l with
    | nil => intro _; exact ⟨rfl, by simp⟩
    | cons s l ih =>
      intro hl
      obtain ⟨cl, g, h1, h2⟩ := hl s (by simp)
      obtain ⟨i1, i2⟩ := ih fun t ht => hl t (by simp [ht])
      rw [List.filterMap_cons, h1]
      change OnePerSeed P (s :: l) ((cl, g, s) :: l.filterMap fun a => answer (f a))
      refine ⟨by rw [List.map_cons, i1], ?_⟩
      intro r hr
      rcases List.mem_cons.1 hr with rfl | hr
      · exact h2
      · exact i2 r hr
  have hk := key seeds h
  match hr : seeds.filterMap fun a => answer (f a) with
  | [] =>
    rw [hr] at hk
    have := hk.1
    simp only [List.map_nil] at this
    exact absurd this.symm hs
  | a :: l =>
    rw [hr] at hk
    exact ⟨a :: l, rfl, hk⟩

/-- **C78.** A dense clustering object the constructor accepts, whose rows have positive sums: for
all seeds and every order in which the processes finish, the call returns one result per seed,
in the order of the seeds; each is the result of one separate run with this seed in one process,
a partition of the nodes beside its own stability, which is not below that of single nodes (up to
the bound below which a covariance counts as zero). -/
theorem C78_dense (sched : Nat → Sched) (par : Params K) (c : Clu K) (hn : 0 < c.n)
    (hrow : rowsOk c.n c.T) (hT : ∀ i < c.n, 0 < rowSum c.n c.T i) (seeds order : List Nat)
    (hs : seeds ≠ []) (ho : order.Perm (List.range seeds.length)) :
    ∃ rs, parallel sched par (.dense c) seeds order = .results rs ∧
      OnePerSeed (fun seed cl g => (∃ k, runMulti par c [sched seed] = .ok [(k, cl, g)]) ∧
        IsPartition c.n cl ∧ g = pairSum c.n c.S cl ∧
        pairSum c.n c.S (singletons c.n) - 2 / 10 ^ 6 ≤ g ∧
        (¬ sIsZero c.n c.S → pairSum c.n c.S (singletons c.n) ≤ g)) seeds rs := by
  apply results_of_tasks _ _ _ _ hs ho
  intro s _
  obtain ⟨rs, h1, h2, h3⟩ := C74_results par c hn hrow hT [sched s]
  match rs, h2 with
  | [(k, cl, g)], _ =>
    obtain ⟨g1, g2, g3, g4, g5⟩ := h3 (k, cl, g) (by simp)
    refine ⟨cl, g, ?_, ⟨k, h1⟩, g2, g3, g4, g5⟩
    unfold runMulti oneRun at h1
    unfold taskDense
    match hm : Verif.Louvain.mkClu c.n c.T c.S .none with
    | .error e => rw [hm] at h1; simp at h1
    | .ok d =>
      rw [hm] at h1
      simp only at h1 ⊢
      match hf : Verif.Louvain.findLouvain (sched s) par d with
      | .error e => rw [hf] at h1; simp at h1
      | .ok (k', p) =>
        rw [hf] at h1
        simp only [runMulti, Except.ok.injEq, List.cons.injEq, Prod.mk.injEq, and_true] at h1 ⊢
        exact ⟨h1.2.1, h1.2.2⟩

/-- Two objects with the same matrix and weights are searched in the same way, also if only one of
them is marked as symmetric. -/
theorem sFindLouvain_same {A B : Autocov K} (fA : Fit A) (fB : Fit B) (hPT : B.PT = A.PT)
    (hw : B.w = A.w) (sc : Sched) (par : Params K) {q : Part} (hq : Fresh ⟨A, q⟩) :
    sFindLouvain sc par ⟨B, q⟩ = sFindLouvain sc par ⟨A, q⟩ := by
  have hqB : Fresh ⟨B, q⟩ := by
    unfold Fresh mkS at hq ⊢
    simp only [hPT] at hq ⊢
    match hm : mk' A.PT.nrows .none false with
    | .error e => rw [hm] at hq; simp at hq
    | .ok r =>
      rw [hm] at hq
      simp only [Except.ok.injEq, SClu.mk.injEq, true_and] at hq ⊢
      exact hq
  have harr : B.toarray = A.toarray := by
    funext i j
    unfold Autocov.toarray
    rw [hPT, hw]
  have hz : B.isAllZeros = A.isAllZeros := by
    unfold Autocov.isAllZeros
    rw [hPT, hw]
  have dA : Dense A A.toarray A.PT.val :=
    ⟨fun _ _ _ _ => rfl, fun i hi j _ => val_nonneg fA.tight i j hi, fun _ _ _ _ => Iff.rfl⟩
  have dB : Dense B A.toarray A.PT.val :=
    ⟨fun i _ j _ => by rw [harr], fun i hi j _ => val_nonneg fA.tight i j (hPT ▸ hi),
      fun _ _ _ _ => by rw [hPT]⟩
  obtain ⟨h1, h2, h3⟩ := fresh_part hq
  simp only at h1 h2 h3
  have hne : ∀ cl ∈ q.clusters, cl.Nonempty := by
    rw [h3]; exact Verif.Louvain.singletons_nonempty _
  have hlen : q.clusters.length = A.PT.nrows := by rw [h3]; simp [singletons]
  have eA := (sMetaLoop_eq fA.fit0 False (Or.inl fA.nonempty) (dA.dense0 fA) False.elim sc par
    (par.nMeta + 3) 0 1 false q ⟨A, q⟩ ⟨A.PT.nrows, A.PT.val, A.toarray, q⟩ h1 h2 hne False.elim
    (Or.inr ⟨rel_base fA.fit0 (Or.inl fA.nonempty) (dA.dense0 fA), rfl, h1, h2, hlen.symm,
      False.elim⟩)).1
  have eB := (sMetaLoop_eq fB.fit0 False (Or.inl fB.nonempty) (dB.dense0 fB) False.elim sc par
    (par.nMeta + 3) 0 1 false q ⟨B, q⟩ ⟨B.PT.nrows, A.PT.val, A.toarray, q⟩ h1 (hPT ▸ h2) hne
    False.elim (Or.inr ⟨rel_base fB.fit0 (Or.inl fB.nonempty) (dB.dense0 fB), rfl, h1, hPT ▸ h2,
      hPT ▸ hlen.symm, False.elim⟩)).1
  unfold sFindLouvain
  simp only [hz]
  have mA := mkS_same hq
  have mB := mkS_same hqB
  simp only at mA mB
  rw [mA, mB]
  simp only
  rw [eA, eB, hPT]

/-- **C78, partial.** A sparse clustering object whose covariance was built from a symmetric matrix
with positive stored entries and no empty row and from the same probabilities as the object: for all
seeds and every order in which the processes finish, one result per seed, in the order of the
seeds; each is the result of a separate run with this seed in one process, a partition of the nodes
beside its own stability, not below that of single nodes.  Missing: matrices that are not symmetric,
and objects whose own probabilities are not those of the covariance (violations below). -/
theorem C78_sparse_partial (sched : Nat → Sched) (par : Params K) (PT : Csr K) (p1 p2 : Nat → K)
    (flag : Bool) (A : Autocov K) (hA : A = mkAutocov PT (.vectors p1 p2) flag) (f : Fit A)
    (hsym : ∀ i j, i < A.PT.nrows → j < A.PT.nrows → A.PT.val i j = A.PT.val j i)
    (seeds order : List Nat) (hs : seeds ≠ []) (ho : order.Perm (List.range seeds.length)) :
    ∃ rs, parallel sched par (.sparse A p1 p2) seeds order = .results rs ∧
      OnePerSeed (fun seed cl g => Verif.Comps.runWhole (sched seed) par A = .ok (cl, g) ∧
        IsPartition A.PT.nrows cl ∧ g = pairSum A.PT.nrows A.toarray cl ∧
        (A.isAllZeros = false → pairSum A.PT.nrows A.toarray (singletons A.PT.nrows) ≤ g))
        seeds rs := by
  have hWPT : (workerCov A p1 p2).PT = A.PT := by
    subst hA
    exact Verif.Comps.sortIndices_sortIndices PT
  have hWw : (workerCov A p1 p2).w = A.w := by subst hA; rfl
  have fW : Fit (workerCov A p1 p2) := by
    refine ⟨good_mk A.PT _ true f.good.wf f.good.square f.good.noRepeats fun _ => hsym, ?_, ?_,
      tight_mk A.PT _ true f.good.wf f.good.square f.tight.rows, ?_, ?_⟩
    · intro _
      rw [hWPT]
      exact hsym
    · rw [hWPT, hWw]; exact f.norm
    · rw [hWPT]; exact f.pos
    · rw [hWPT]; exact f.nonempty
  have hst : ∀ p, sStability (workerCov A p1 p2) p = sStability A p := by
    intro p
    rw [sStability_eq, sStability_eq]
    congr 1
    funext i j
    unfold Autocov.toarray
    rw [hWPT, hWw]
  obtain ⟨q, hq, hc, hqn, hqs⟩ := Verif.Louvain.mk'_none A.PT.nrows false
  have hmk : mkS A .none = .ok ⟨A, q⟩ := by unfold mkS; rw [hq]
  have hmkW : mkS (workerCov A p1 p2) .none = .ok ⟨workerCov A p1 p2, q⟩ := by
    unfold mkS; rw [hWPT, hq]
  apply results_of_tasks _ _ _ _ hs ho
  intro s _
  have hrun : ∃ k p, sFindLouvain (sched s) par ⟨A, q⟩ = .ok (k, p) ∧ Consistent p ∧
      p.numNodes = A.PT.nrows ∧ (A.isAllZeros = false → sStability A q ≤ sStability A p) := by
    cases hz : A.isAllZeros with
    | true =>
      obtain ⟨p, h1, h2, h3, _⟩ := C69_all_zeros (sched s) par ⟨A, q⟩ hz f.pos
      exact ⟨0, p, h1, h2, h3, by simp⟩
    | false =>
      obtain ⟨k, p, h1, h2, h3, _, h5⟩ := C69_no_worse_partial (sched s) par ⟨A, q⟩ f hmk hz
      exact ⟨k, p, h1, h2, h3, fun _ => h5⟩
  obtain ⟨k, p, h1, h2, h3, h4⟩ := hrun
  have hpair : ∀ r : Part, Consistent r → r.numNodes = A.PT.nrows →
      sStability A r = pairSum A.PT.nrows A.toarray r.clusters := by
    intro r hr hrn
    rw [C69_stability_exact A r hr, Verif.Static.pairStability_eq hrn]
  refine ⟨p.clusters, sStability A p, ?_, ?_, h3 ▸ h2.1, hpair p h2 h3, ?_⟩
  · unfold taskSparse
    rw [hmkW]
    simp only
    rw [sFindLouvain_same f fW hWPT hWw (sched s) par hmk, h1]
    simp only [hst]
  · unfold Verif.Comps.runWhole
    rw [hmk]
    simp only
    rw [h1]
  · intro hz
    rw [← hqs, ← hpair q hc hqn]
    exact h4 hz

/-- **C78.** If a run with one of the seeds fails, the call fails, and with the exception of one of
the failing runs; objects of other classes give `None`, and zero repetitions an exception. -/
theorem C78_failures (sched : Nat → Sched) (par : Params K) (seeds order : List Nat)
    (ho : order.Perm (List.range seeds.length)) :
    (∀ c : Clu K, (∃ s ∈ seeds, ∃ e, taskDense sched par c s = .error e) →
      ∃ s ∈ seeds, ∃ e, taskDense sched par c s = .error e ∧
        parallel sched par (.dense c) seeds order = .failed e) ∧
    (∀ (A : Autocov K) (p1 p2 : Nat → K),
      (∃ s ∈ seeds, ∃ e, taskSparse sched par (workerCov A p1 p2) s = .error e) →
      ∃ s ∈ seeds, ∃ e, taskSparse sched par (workerCov A p1 p2) s = .error e ∧
        parallel sched par (.sparse A p1 p2) seeds order = .failed e) ∧
    (seeds = [] → (∀ c : Clu K, parallel sched par (.dense c) seeds order = .unpack) ∧
      ∀ (A : Autocov K) (p1 p2 : Nat → K),
        parallel sched par (.sparse A p1 p2) seeds order = .unpack) ∧
    parallel sched par (.other : Obj K) seeds order = .nothing := by
  refine ⟨?_, ?_, ?_, rfl⟩
  · intro c h
    obtain ⟨s, hs, e, he, hp⟩ := poolMap_fails (taskDense sched par c) seeds order ho h
    refine ⟨s, hs, e, he, ?_⟩
    unfold parallel
    simp only [hp, unzip]
  · intro A p1 p2 h
    obtain ⟨s, hs, e, he, hp⟩ := poolMap_fails (taskSparse sched par (workerCov A p1 p2)) seeds order ho h
    refine ⟨s, hs, e, he, ?_⟩
    unfold parallel
    simp only [hp, unzip]
  · rintro rfl
    have : order = [] := by simpa using ho
    subst this
    exact ⟨fun _ => rfl, fun _ _ _ => rfl⟩

/-! ## Violations -/

/-- Lists instead of sets, for evaluation. -/
def shown (o : Outcome ℚ) : Option (List (List (List Nat) × ℚ × Nat)) :=
  match o with
  | .results l => some (l.map fun r => (r.1.map listSet, r.2))
  | _ => none

/-- The same for one run. -/
def shownRun (r : Except SErr (List (Finset Nat) × ℚ)) : Option (List (List Nat) × ℚ) :=
  match r with
  | .ok r => some (r.1.map listSet, r.2)
  | .error _ => none

/-- Node 0 sends nine tenths of its walkers to node 1, which keeps all of its own. -/
def oneWay : Csr ℚ := ofRows 2 [[(0, 1 / 10), (1, 9 / 10)], [(1, 1)]]

/-- **C78, violated.** For a sparse object built from a transition matrix that gives no symmetric
covariance, the processes treat it as symmetric: the search then returns a partition whose
stability, 0, is below that of single nodes, 1/20, while a run in one process with the same seed
keeps the single nodes. -/
theorem C78_asymmetric_violated : ∃ (T : Csr ℚ) (p1 : Nat → ℚ), T.WF ∧ Stochastic T ∧
    Fit (fromT T (some p1) none) ∧
    shown (parallel (fun _ => exSched) exPar (ofT T p1) [7] [0]) = some [([[0, 1]], 0, 7)] ∧
    shownRun (Verif.Comps.runWhole exSched exPar (fromT T (some p1) none)) =
      some ([[0], [1]], 1 / 20) := by
  refine ⟨oneWay, fun _ => 1 / 2, wf_ofRows _ _ (by decide +kernel),
    ⟨by decide +kernel, by decide +kernel⟩, ?_, by decide +kernel, by decide +kernel⟩
  exact ⟨good_fromT oneWay (wf_ofRows _ _ (by decide +kernel)) (by decide)
      (by unfold Csr.NoRepeats; decide +kernel) _ _,
      fun h => absurd h (by decide), ⟨by decide +kernel, by decide +kernel⟩,
      ⟨by decide +kernel, by decide +kernel⟩, by decide +kernel, by decide +kernel⟩

/-- A symmetric matrix of joint probabilities with unequal row sums. -/
def uneven : Csr ℚ := ofRows 2 [[(0, 1 / 2), (1, 1 / 8)], [(0, 1 / 8), (1, 1 / 4)]]

/-- Its covariance, with the row sums as probabilities. -/
def unevenCov : Autocov ℚ :=
  mkAutocov uneven (.vectors (fun i => if i = 0 then 5 / 8 else 3 / 8)
    (fun i => if i = 0 then 5 / 8 else 3 / 8)) true

theorem uneven_symm : ∀ i j, i < uneven.nrows → j < uneven.nrows →
    uneven.val i j = uneven.val j i := by
  have : ∀ i < uneven.nrows, ∀ j < uneven.nrows, uneven.val i j = uneven.val j i := by decide +kernel
  exact fun i j hi hj => this i hi j hj

theorem unevenCov_symm : ∀ i j, i < unevenCov.PT.nrows → j < unevenCov.PT.nrows →
    unevenCov.PT.val i j = unevenCov.PT.val j i := by
  have : ∀ i < unevenCov.PT.nrows, ∀ j < unevenCov.PT.nrows,
      unevenCov.PT.val i j = unevenCov.PT.val j i := by decide +kernel
  exact fun i j hi hj => this i hi j hj

/-- **C78, violated.** For a sparse object made from a covariance alone, the processes replace the
probabilities of the covariance by the default ones of the object.  They report the stability 1/2 for
one cluster of all nodes; its stability is 0, and a run in one process finds the single nodes, of
stability 7/32. -/
theorem C78_defaults_violated : ∃ A : Autocov ℚ, Fit A ∧
    shown (parallel (fun _ => exSched) exPar (ofCov A) [7] [0]) = some [([[0, 1]], 1 / 2, 7)] ∧
    A.submatSum [0, 1] [0, 1] = 0 ∧
    shownRun (Verif.Comps.runWhole exSched exPar A) = some ([[0], [1]], 7 / 32) := by
  refine ⟨unevenCov, ?_, by decide +kernel, by decide +kernel, by decide +kernel⟩
  exact ⟨good_mk _ _ _ (wf_ofRows _ _ (by decide +kernel)) (by decide)
      (by unfold Csr.NoRepeats; decide +kernel) (fun _ => uneven_symm),
      fun _ => unevenCov_symm, ⟨by decide +kernel, by decide +kernel⟩,
      ⟨by decide +kernel, by decide +kernel⟩, by decide +kernel, by decide +kernel⟩

/-- Non-vacuity of `C78_sparse_partial`, with processes that finish in reverse order. -/
example : Fit unevenCov ∧
    shown (parallel (fun _ => exSched) exPar (.sparse unevenCov
      (fun i => if i = 0 then 5 / 8 else 3 / 8) (fun i => if i = 0 then 5 / 8 else 3 / 8))
      [7, 11] [1, 0]) = some [([[0], [1]], 7 / 32, 7), ([[0], [1]], 7 / 32, 11)] := by
  refine ⟨⟨good_mk _ _ _ (wf_ofRows _ _ (by decide +kernel)) (by decide)
      (by unfold Csr.NoRepeats; decide +kernel) (fun _ => uneven_symm),
      fun _ => unevenCov_symm, ⟨by decide +kernel, by decide +kernel⟩,
      ⟨by decide +kernel, by decide +kernel⟩, by decide +kernel, by decide +kernel⟩, by decide +kernel⟩

/-- Non-vacuity of `C78_dense`: two pairs of nodes, processes that finish in reverse order. -/
def exDense : Clu ℚ :=
  { n := 4, T := fun i j => if i / 2 = j / 2 then 1 / 2 else 0,
    S := fun i j => (if i / 2 = j / 2 then 1 / 8 else 0) - 1 / 16,
    part := ⟨4, [], fun _ => none⟩ }

example : 0 < exDense.n ∧ rowsOk exDense.n exDense.T ∧
    (∀ i < exDense.n, 0 < rowSum exDense.n exDense.T i) ∧
    shown (parallel (fun _ => exSched) exPar (.dense exDense) [7, 11] [1, 0]) =
      some [([[0, 1], [2, 3]], 1 / 2, 7), ([[0, 1], [2, 3]], 1 / 2, 11)] := by
  refine ⟨by decide, by decide +kernel, by decide +kernel, by decide +kernel⟩

end Verif.Parallel
