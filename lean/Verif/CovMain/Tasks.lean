import Verif.CovMain.Frame

/-!
# All integrals that are asked for are computed, in whatever order the processes work (C137)
-/

namespace Verif.CovMain

open Verif.Scripts

set_option linter.unusedSectionVars false

variable {K : Type} [Field K] [LinearOrder K] [IsStrictOrderedRing K] {τ : Type} [DecidableEq τ]

/-- Where a task is after a number of its steps: what it has done is what it would have done alone. -/
def Inv (cfg : τ → Cfg K) (files : τ → Nat → Disk K) (s : Pool τ K) (i : Nat) (tau : τ) (rev : Bool) (start n : Nat) : Prop :=
  match s.proc (i, tau, rev) with
  | none => n = 0 ∧ Same rev start (s.store tau i) (files tau i)
  | some (r, as) => ∃ pre, pre ++ as = (begin (from' (cfg tau) i) rev (files tau i)).2 ∧ (as = [] ∨ pre.length + 1 = n) ∧
      Sim rev start { r with disk := s.store tau i }
        (pre.foldl (Act.run (from' (cfg tau) i) rev) (begin (from' (cfg tau) i) rev (files tau i)).1)

/-- The starting point of a task, if the script can have such a task. -/
structure Valid (cfg : τ → Cfg K) (i : Nat) (tau : τ) (rev : Bool) (start : Nat) : Prop where
  usable : Usable (from' (cfg tau) i) start
  back : rev = true → 0 < i

/-- What the next step of a task does to the files of its time scale and starting point. -/
theorem step_store (cfg : τ → Cfg K) (files : τ → Nat → Disk K) (s : Pool τ K) {i : Nat} {tau : τ} {rev : Bool} {start n : Nat}
    (hv : Valid cfg i tau rev start) (h : Inv cfg files s i tau rev start n) :
    Same (!rev) start ((s.step cfg (i, tau, rev)).store tau i) (s.store tau i) := by
  unfold Inv at h
  unfold Pool.step
  cases hp : s.proc (i, tau, rev) with
  | none =>
    dsimp only
    rw [if_pos ⟨rfl, rfl⟩, (begin_same hv.usable hv.back (Same.refl rev start (s.store tau i))).2.2.1]
    exact Same.refl _ _ _
  | some x =>
    obtain ⟨r, as⟩ := x
    cases as with
    | nil => exact Same.refl _ _ _
    | cons a as =>
      dsimp only
      rw [if_pos ⟨rfl, rfl⟩]
      rw [hp] at h
      obtain ⟨pre, hpre, -, -⟩ := h
      have ha : a.Own rev start := (begin_same hv.usable hv.back (Same.refl rev start (files tau i))).2.2.2.2 a (by rw [← hpre]; simp)
      obtain ⟨ws, hws, -, hd⟩ := run_writes (cfg := from' (cfg tau) i) { r with disk := s.store tau i } ha
      rw [hd]
      exact same_others ws _ hws

theorem step_own (cfg : τ → Cfg K) (files : τ → Nat → Disk K) (s : Pool τ K) {i : Nat} {tau : τ} {rev : Bool} {start n : Nat}
    (hv : Valid cfg i tau rev start) (h : Inv cfg files s i tau rev start n) :
    Inv cfg files (s.step cfg (i, tau, rev)) i tau rev start (n + 1) := by
  unfold Inv at h
  cases hp : s.proc (i, tau, rev) with
  | none =>
    rw [hp] at h
    obtain ⟨rfl, hs⟩ := h
    obtain ⟨h1, h2, h3, -, -⟩ := begin_same hv.usable hv.back hs
    unfold Inv Pool.step
    rw [hp]
    dsimp only
    rw [if_pos rfl, if_pos ⟨rfl, rfl⟩]
    exact ⟨[], h1, .inr rfl, h2⟩
  | some x =>
    obtain ⟨r, as⟩ := x
    rw [hp] at h
    cases as with
    | nil =>
      have hs : s.step cfg (i, tau, rev) = s := by unfold Pool.step; rw [hp]
      rw [hs]
      unfold Inv
      rw [hp]
      obtain ⟨pre, h1, -, h3⟩ := h
      exact ⟨pre, h1, .inl rfl, h3⟩
    | cons a as =>
      obtain ⟨pre, h1, h2, h3⟩ := h
      have ha : a.Own rev start := (begin_same hv.usable hv.back (Same.refl rev start (files tau i))).2.2.2.2 a (by rw [← h1]; simp)
      unfold Inv Pool.step
      rw [hp]
      dsimp only
      rw [if_pos rfl, if_pos ⟨rfl, rfl⟩]
      refine ⟨pre ++ [a], by rw [← h1]; simp, .inr ?_, ?_⟩
      · rcases h2 with h2 | h2
        · cases h2
        · rw [List.length_append, List.length_singleton]; omega
      · rw [List.foldl_append]
        exact sim_run h3 ha

theorem step_other (cfg : τ → Cfg K) (files : τ → Nat → Disk K) (s : Pool τ K) {i : Nat} {tau : τ} {rev : Bool} {start n : Nat}
    (h : Inv cfg files s i tau rev start n) {u : Task τ} (hne : u ≠ (i, tau, rev))
    (hstore : Same rev start ((s.step cfg u).store tau i) (s.store tau i)) :
    Inv cfg files (s.step cfg u) i tau rev start n := by
  have hproc : (s.step cfg u).proc (i, tau, rev) = s.proc (i, tau, rev) := by
    unfold Pool.step
    split
    · dsimp only; rw [if_neg (Ne.symm hne)]
    · rfl
    · dsimp only; rw [if_neg (Ne.symm hne)]
  unfold Inv at h ⊢
  rw [hproc]
  cases hp : s.proc (i, tau, rev) with
  | none =>
    rw [hp] at h
    exact ⟨h.1, hstore.trans h.2⟩
  | some x =>
    obtain ⟨r, as⟩ := x
    rw [hp] at h
    obtain ⟨pre, h1, h2, h3⟩ := h
    exact ⟨pre, h1, h2, ⟨h3.st, h3.log, h3.failed, hstore.trans h3.disk⟩⟩

theorem step_elsewhere (cfg : τ → Cfg K) (s : Pool τ K) {i : Nat} {tau : τ} {u : Task τ} (hne : ¬ (tau = u.2.1 ∧ i = u.1)) :
    (s.step cfg u).store tau i = s.store tau i := by
  unfold Pool.step
  split
  · dsimp only; rw [if_neg hne]
  · rfl
  · dsimp only; rw [if_neg hne]

theorem inv_run (cfg : τ → Cfg K) (files : τ → Nat → Disk K) (order : List (Task τ))
    (hv : ∀ t ∈ order, ∃ start, Valid cfg t.1 t.2.1 t.2.2 start) :
    ∀ i tau rev start, Valid cfg i tau rev start →
      Inv cfg files (Pool.run cfg files order) i tau rev start (order.count (i, tau, rev)) := by
  induction order using List.reverseRecOn with
  | nil =>
    intro i tau rev start _
    exact ⟨rfl, Same.refl _ _ _⟩
  | append_singleton order u ih =>
    intro i tau rev start ht
    have ih := ih fun t h => hv t (by simp [h])
    have hrun : Pool.run cfg files (order ++ [u]) = (Pool.run cfg files order).step cfg u := by
      unfold Pool.run
      rw [List.foldl_append]
      rfl
    rw [hrun, List.count_append]
    obtain ⟨j, tau', rev'⟩ := u
    by_cases he : (j, tau', rev') = (i, tau, rev)
    · cases he
      rw [List.count_singleton_self]
      exact step_own cfg files _ ht (ih i tau rev start ht)
    · rw [List.count_singleton, if_neg (by simpa using he), Nat.add_zero]
      refine step_other cfg files _ (ih i tau rev start ht) he ?_
      by_cases hk : tau = tau' ∧ i = j
      · obtain ⟨rfl, rfl⟩ := hk
        obtain ⟨start', hv'⟩ := hv (i, tau, rev') (by simp)
        have hst : start' = start := by
          have h1 := hv'.usable.start
          have h2 := ht.usable.start
          rw [h1] at h2
          exact Option.some.inj h2
        subst hst
        have hrev : rev = !rev' := by
          cases rev <;> cases rev' <;> first | rfl | exact absurd rfl he
        rw [hrev]
        exact step_store cfg files _ hv' (ih i tau rev' start' hv')
      · rw [step_elsewhere cfg _ hk]
        exact Same.refl _ _ _

/-- **C137**: in whatever order the processes work, and wherever they are stopped, what a task has
written until then is a beginning of what it writes when it works alone, and the files of its
direction of time are exactly those. -/
theorem C137_any_order (cfg : τ → Cfg K) (files : τ → Nat → Disk K) (order : List (Task τ))
    (hv : ∀ t ∈ order, ∃ start, Valid cfg t.1 t.2.1 t.2.2 start) {i : Nat} {tau : τ} {rev : Bool} {start : Nat}
    (ht : Valid cfg i tau rev start) :
    ∃ ws, ws <+: (worker (from' (cfg tau) i) rev (files tau i)).log ∧
      (∀ kind stop, After rev start stop →
        ((Pool.run cfg files order).store tau i).integral kind stop = (ws.foldl Disk.write (files tau i)).integral kind stop) ∧
      (Finished (Pool.run cfg files order) (i, tau, rev) →
        ws.foldl Disk.write (files tau i) = (worker (from' (cfg tau) i) rev (files tau i)).disk) ∧
      ((begin (from' (cfg tau) i) rev (files tau i)).2.length < order.count (i, tau, rev) →
        Finished (Pool.run cfg files order) (i, tau, rev)) := by
  have h := inv_run cfg files order hv i tau rev start ht
  obtain ⟨-, -, hd, hl, hown⟩ := begin_same ht.usable ht.back (Same.refl rev start (files tau i))
  unfold Inv at h
  rw [worker_begin]
  cases hp : (Pool.run cfg files order).proc (i, tau, rev) with
  | none =>
    rw [hp] at h
    refine ⟨[], List.nil_prefix, h.2.1, ?_, ?_⟩
    · rintro ⟨r, hr⟩
      rw [hp] at hr
      cases hr
    · intro hc
      rw [h.1] at hc
      exact absurd hc (Nat.not_lt_zero _)
  | some x =>
    obtain ⟨r, as⟩ := x
    rw [hp] at h
    obtain ⟨pre, h1, h2, h3⟩ := h
    obtain ⟨ws, hw1, hw2⟩ := runs_writes (cfg := from' (cfg tau) i) pre (begin (from' (cfg tau) i) rev (files tau i)).1
      fun a ha => hown a (by rw [← h1]; simp [ha])
    rw [hl, List.nil_append] at hw1
    rw [hd] at hw2
    obtain ⟨ws', hw3, -⟩ := runs_writes (cfg := from' (cfg tau) i) as
      (pre.foldl (Act.run (from' (cfg tau) i) rev) (begin (from' (cfg tau) i) rev (files tau i)).1)
      fun a ha => hown a (by rw [← h1]; simp [ha])
    refine ⟨ws, ?_, ?_, ?_, ?_⟩
    · rw [← h1, List.foldl_append, hw3, hw1]
      exact List.prefix_append _ _
    · intro kind stop hs
      rw [← hw2]
      exact h3.disk.1 kind stop hs
    · rintro ⟨r', hr'⟩
      rw [hp] at hr'
      cases hr'
      rw [List.append_nil] at h1
      rw [← h1, hw2]
    · intro hc
      refine ⟨r, ?_⟩
      rw [hp]
      rcases h2 with rfl | h2
      · rfl
      · rw [← h1, List.length_append] at hc
        have : as = [] := List.length_eq_zero_iff.1 (by omega)
        rw [this]

/-- **C137**: the tasks are those that are asked for, each of them once. -/
theorem C137_tasks (o : Starts) {len : Nat} (hlen : 0 < len) {taus : List τ} (htaus : taus.Nodup) :
    (tasks o len taus).Nodup ∧ ∀ i tau rev, (i, tau, rev) ∈ tasks o len taus ↔ tau ∈ taus ∧ Asked o len i rev := by
  have hmap : ∀ (i : Nat) (rev : Bool), (taus.map fun tau => ((i, tau, rev) : Task τ)).Nodup := fun i rev =>
    htaus.map fun a b h => by simpa using h
  have hprod : ∀ (l : List Nat) (rev : Bool), l.Nodup → (l.flatMap fun i => taus.map fun tau => ((i, tau, rev) : Task τ)).Nodup := by
    intro l rev hl
    rw [List.nodup_flatMap]
    refine ⟨fun i _ => hmap i rev, hl.imp fun {a b} hab => ?_⟩
    intro t h1 h2
    obtain ⟨_, -, rfl⟩ := List.mem_map.1 h1
    obtain ⟨_, -, h2⟩ := List.mem_map.1 h2
    cases h2
    exact hab rfl
  obtain ⟨dir, fs, ff, fb⟩ := o
  constructor
  · unfold tasks
    split
    · exact hmap _ _
    · split
      · exact hmap _ _
      · have hone : ∀ rev : Bool, (if rev then
            if fb then taus.map fun tau => ((len - 1, tau, rev) : Task τ)
            else (List.range' 1 (len - 1)).flatMap fun i => taus.map fun tau => (i, tau, rev)
          else if fb then taus.map fun tau => (0, tau, rev)
          else (List.range (len - 1)).flatMap fun i => taus.map fun tau => (i, tau, rev)).Nodup := by
          intro rev
          split
          · split
            · exact hmap _ _
            · exact hprod _ _ List.nodup_range'
          · split
            · exact hmap _ _
            · exact hprod _ _ List.nodup_range
        rw [List.nodup_flatMap]
        refine ⟨fun rev _ => hone rev, ?_⟩
        have hdir : dir.list.Nodup := by cases dir <;> decide
        refine hdir.imp fun {a b} hab => ?_
        have hrev : ∀ (rev : Bool) (t : Task τ), t ∈ (if rev then
            if fb then taus.map fun tau => ((len - 1, tau, rev) : Task τ)
            else (List.range' 1 (len - 1)).flatMap fun i => taus.map fun tau => (i, tau, rev)
          else if fb then taus.map fun tau => (0, tau, rev)
          else (List.range (len - 1)).flatMap fun i => taus.map fun tau => (i, tau, rev)) → t.2.2 = rev := by
          intro rev t ht
          split at ht
          · split at ht
            · obtain ⟨_, -, rfl⟩ := List.mem_map.1 ht; rfl
            · obtain ⟨_, -, ht⟩ := List.mem_flatMap.1 ht
              obtain ⟨_, -, rfl⟩ := List.mem_map.1 ht; rfl
          · split at ht
            · obtain ⟨_, -, rfl⟩ := List.mem_map.1 ht; rfl
            · obtain ⟨_, -, ht⟩ := List.mem_flatMap.1 ht
              obtain ⟨_, -, rfl⟩ := List.mem_map.1 ht; rfl
        intro t h1 h2
        exact hab ((hrev a t h1).symm.trans (hrev b t h2))
  · intro i tau rev
    unfold tasks Asked
    by_cases htau : tau ∈ taus <;> cases fs <;> cases ff <;> cases fb <;> cases dir <;> cases rev <;>
      simp [Direction.list, Direction.Has, List.mem_range'_1, htau] <;> omega

/-- The end points of a task are the targets. -/
theorem stops_target {cfg : Cfg K} {start : Nat} (hu : Usable cfg start) {rev : Bool} (hr : rev = true → 0 < cfg.indStart) {b : Nat}
    (hb : Target cfg.allInds cfg.onlyOne cfg.indStart rev b) :
    ∃ stops, intStops cfg.allInds cfg.indStart cfg.onlyOne rev = .ok stops ∧ b ∈ stops := by
  obtain ⟨j, hj, hij, hone⟩ := hb
  obtain ⟨hjl, hjb⟩ := List.getElem?_eq_some_iff.1 hj
  obtain ⟨hil, -⟩ := List.getElem?_eq_some_iff.1 hu.start
  unfold intStops
  cases rev
  · simp only [Bool.false_eq_true, if_false] at hij hone ⊢
    by_cases ho : cfg.onlyOne = true
    · rw [if_pos ho, ← hone ho, hj]
      exact ⟨[b], rfl, by simp⟩
    · rw [if_neg ho]
      refine ⟨_, rfl, ?_⟩
      rw [List.mem_drop_iff_getElem]
      exact ⟨j - (cfg.indStart + 1), by omega, by
        have : cfg.indStart + 1 + (j - (cfg.indStart + 1)) = j := by omega
        simp only [this, hjb]⟩
  · simp only [if_true] at hij hone ⊢
    rw [if_neg (show ¬ cfg.indStart = 0 by have := hr rfl; omega)]
    have hmem : b ∈ (cfg.allInds.take cfg.indStart).reverse := by
      rw [List.mem_reverse, List.mem_take_iff_getElem]
      exact ⟨j, by omega, hjb⟩
    by_cases ho : cfg.onlyOne = true
    · rw [if_pos ho]
      have hj1 := hone ho
      have hlast : (cfg.allInds.take cfg.indStart).reverse.head? = some b := by
        rw [List.head?_reverse, List.getLast?_eq_getElem?, List.length_take, List.getElem?_take, if_pos (by omega), ← hj]
        congr 1
        omega
      cases hl : (cfg.allInds.take cfg.indStart).reverse with
      | nil => rw [hl] at hmem; cases hmem
      | cons x l =>
        rw [hl] at hlast
        cases hlast
        exact ⟨[b], rfl, by simp⟩
    · rw [if_neg ho]
      exact ⟨_, rfl, hmem⟩

theorem target_after {cfg : Cfg K} {start : Nat} (hu : Usable cfg start) {rev : Bool} {b : Nat}
    (hb : Target cfg.allInds cfg.onlyOne cfg.indStart rev b) : After rev start b := by
  obtain ⟨j, hj, hij, -⟩ := hb
  obtain ⟨hjl, rfl⟩ := List.getElem?_eq_some_iff.1 hj
  obtain ⟨hil, rfl⟩ := List.getElem?_eq_some_iff.1 hu.start
  have hg := List.pairwise_iff_getElem.1 hu.grid
  unfold After
  cases rev
  · simp only [Bool.false_eq_true, if_false] at hij ⊢
    exact hg _ _ hil hjl hij
  · simp only [if_true] at hij ⊢
    exact hg _ _ hjl hil hij

/-- **C137**: when all tasks are done, in whatever order the processes worked, every integral that is
asked for is on the disk, complete and right.  The directory was empty, or the script works with one kind
of matrices and continues runs that were stopped. -/
theorem C137_complete (cfg : τ → Cfg K) (o : Starts) {grid : List Nat} (hgrid : ∀ tau, (cfg tau).allInds = grid)
    {taus : List τ} (hu : ∀ tau ∈ taus, ∀ i start, grid[i]? = some start → Usable (from' (cfg tau) i) start)
    (htaus : taus.Nodup) (hne : 1 < grid.length) (files : τ → Nat → Disk K)
    (hfiles : (∀ tau i, files tau i = .empty) ∨
      ∀ tau i, (cfg tau).use .lin ≠ (cfg tau).use .expm ∧ Crashes (from' (cfg tau) i) (files tau i))
    (order : List (Task τ)) (horder : ∀ t ∈ order, t ∈ tasks o grid.length taus)
    (hdone : ∀ t ∈ tasks o grid.length taus, Finished (Pool.run cfg files order) t)
    {i : Nat} {tau : τ} {rev : Bool} (htau : tau ∈ taus) (hask : Asked o grid.length i rev) {a b : Nat}
    (ha : grid[i]? = some a) (hb : Target grid (cfg tau).onlyOne i rev b) {kind : Kind} (hk : (cfg tau).use kind = true) :
    Complete (cfg tau) rev kind a b (((Pool.run cfg files order).store tau i).integral kind b) := by
  have hlen : 0 < grid.length := by omega
  obtain ⟨-, hmem⟩ := C137_tasks o hlen htaus
  have hvalid : ∀ i tau rev, tau ∈ taus → Asked o grid.length i rev → ∃ start, grid[i]? = some start ∧ Valid cfg i tau rev start := by
    intro i tau rev htau hask
    have hi : i < grid.length ∧ (rev = true → 0 < i) := by
      unfold Asked at hask
      split at hask
      · obtain ⟨rfl, rfl⟩ := hask; exact ⟨by omega, by simp⟩
      · split at hask
        · exact ⟨by omega, fun _ => by omega⟩
        · obtain ⟨-, hask⟩ := hask
          split at hask
          · split at hask
            · exact ⟨by omega, fun _ => by omega⟩
            · next hr => exact ⟨by omega, fun h => absurd h hr⟩
          · split at hask
            · exact ⟨by omega, fun _ => by omega⟩
            · next hr => exact ⟨by omega, fun h => absurd h hr⟩
    refine ⟨grid[i], List.getElem?_eq_getElem hi.1, hu tau htau i _ (List.getElem?_eq_getElem hi.1), hi.2⟩
  have hv : ∀ t ∈ order, ∃ start, Valid cfg t.1 t.2.1 t.2.2 start := by
    rintro ⟨j, tau', rev'⟩ ht
    obtain ⟨h1, h2⟩ := (hmem j tau' rev').1 (horder _ ht)
    obtain ⟨start, -, h⟩ := hvalid j tau' rev' h1 h2
    exact ⟨start, h⟩
  obtain ⟨start, hst, ht⟩ := hvalid i tau rev htau hask
  rw [ha] at hst
  cases hst
  obtain ⟨ws, -, h2, h3, -⟩ := C137_any_order cfg files order hv ht
  have hb' : Target (from' (cfg tau) i).allInds (from' (cfg tau) i).onlyOne (from' (cfg tau) i).indStart rev b := by
    show Target (cfg tau).allInds (cfg tau).onlyOne i rev b
    rw [hgrid]
    exact hb
  obtain ⟨stops, hs, hbs⟩ := stops_target ht.usable ht.back hb'
  rw [h2 kind b (target_after ht.usable hb'), h3 (hdone _ ((hmem i tau rev).2 ⟨htau, hask⟩))]
  rcases hfiles with hf | hf
  · rw [hf]
    exact (C50_first_run ht.usable ht.back hs).2 kind hk b hbs
  · exact (C50_resumed_partial ht.usable (hf tau i).1 (hf tau i).2 ht.back hs).2 kind hk b hbs

/-- **C137**, what goes wrong: whoever asks for the integrals from the start and, with the other option, for
those from the finish, gets only those from the start. -/
theorem C137_flags_violated (o : Starts) (hs : o.fromStart = true) (_hf : o.fromFinish = true) (len : Nat) (taus : List τ) :
    ∀ t ∈ tasks o len taus, t.2.2 = false := by
  intro t ht
  unfold tasks at ht
  rw [if_pos hs] at ht
  obtain ⟨_, -, rfl⟩ := List.mem_map.1 ht
  rfl

/-! ### End points that are not in order -/

theorem interval_integral (cfg : Cfg K) (rev : Bool) (kind : Kind) (k : Nat) (r : Run K) :
    (r.interval cfg rev kind k).disk.integral = r.disk.integral := by
  have hc : (r.compute cfg rev kind k).disk.integral = r.disk.integral := by
    unfold Run.compute
    split
    · rfl
    · dsimp only
      split <;> rfl
  unfold Run.interval
  split
  · rfl
  · split
    · split
      · exact hc
      · rfl
      · split <;> rfl
    · exact hc

theorem saves_effect (stop : Nat) (kinds : List Kind) : ∀ r : Run K,
    (kinds.foldl (fun r kind => r.save kind stop) r).st = r.st ∧
    (kinds.foldl (fun r kind => r.save kind stop) r).failed = r.failed ∧
    (∀ kind s, s ≠ stop → (kinds.foldl (fun r kind => r.save kind stop) r).disk.integral kind s = r.disk.integral kind s) ∧
    (∀ kind, (kinds.foldl (fun r kind => r.save kind stop) r).disk.integral kind stop =
      if kind ∈ kinds ∧ r.failed = none ∧ 0 < (r.st kind).time then
        some (.whole ⟨fun i j => if i ≤ j then (r.st kind).itpt i j else 0, (r.st kind).time⟩)
      else r.disk.integral kind stop) := by
  induction kinds with
  | nil => intro r; exact ⟨rfl, rfl, fun _ _ _ => rfl, fun _ => by simp⟩
  | cons kind kinds ih =>
    intro r
    have h1 : (r.save kind stop).st = r.st ∧ (r.save kind stop).failed = r.failed ∧
        (∀ k s, s ≠ stop → (r.save kind stop).disk.integral k s = r.disk.integral k s) ∧
        (∀ k, (r.save kind stop).disk.integral k stop =
          if k = kind ∧ r.failed = none ∧ 0 < (r.st kind).time then
            some (.whole ⟨fun i j => if i ≤ j then (r.st kind).itpt i j else 0, (r.st kind).time⟩)
          else r.disk.integral k stop) := by
      unfold Run.save
      cases hf : r.failed with
      | some e =>
        rw [if_pos (by rfl)]
        exact ⟨rfl, hf, fun _ _ _ => rfl, fun k => by simp⟩
      | none =>
        rw [if_neg (by simp)]
        by_cases ht : 0 < (r.st kind).time
        · rw [if_pos ht]
          refine ⟨rfl, hf, fun k s hs => ?_, fun k => ?_⟩
          · show (if _ then _ else _) = _
            rw [if_neg (fun h => hs h.2)]
          · show (if _ then _ else _) = _
            simp [ht]
        · rw [if_neg ht]
          exact ⟨rfl, hf, fun _ _ _ => rfl, fun k => by simp [ht]⟩
    obtain ⟨a1, a2, a3, a4⟩ := h1
    obtain ⟨b1, b2, b3, b4⟩ := ih (r.save kind stop)
    rw [List.foldl_cons]
    refine ⟨b1.trans a1, b2.trans a2, fun k s hs => (b3 k s hs).trans (a3 k s hs), fun k => ?_⟩
    rw [b4, a4, a1, a2]
    by_cases hk : k = kind
    · subst hk
      by_cases hc : r.failed = none ∧ 0 < (r.st k).time
      · simp [hc]
      · simp [hc]
    · simp [hk]

/-- **C137**, what goes wrong: the end points of `--int_list` are used in the order in which they are given.  After an end
point `b`, the file of an end point `c` that is not later gets the integral up to `b`. -/
theorem C137_list_violated (cfg : Cfg K) {a b c : Nat} (hg : cfg.allInds = [a, b, c]) (hi : cfg.indStart = 0)
    (ho : cfg.onlyOne = false) (hbc : c < b) (kind : Kind) :
    (worker cfg false .empty).disk.integral kind c = (worker cfg false .empty).disk.integral kind b := by
  have hst : intStops cfg.allInds cfg.indStart cfg.onlyOne false = .ok [b, c] := by
    rw [hg, hi, ho]
    rfl
  have hr : ∀ kind, resume cfg (.empty : Disk K) false a ⟨fun _ => .init, a, [b, c], fun _ => false, fun _ => 0⟩ kind =
      .ok ⟨fun _ => .init, a, [b, c], fun _ => false, fun _ => 0⟩ := by
    intro kind
    unfold resume
    dsimp only
    rw [show existing (.empty : Disk K) kind [b, c] = 0 from rfl]
    simp
  unfold worker
  rw [hg, hi] at *
  rw [show ([a, b, c] : List Nat)[0]? = some a from rfl]
  dsimp only
  rw [hst]
  dsimp only
  rw [foldlM_two_ok (hr .expm) (hr .lin)]
  dsimp only
  rw [if_neg (by simp)]
  obtain ⟨kinds, hkinds⟩ : ∃ kinds, kinds = [Kind.expm, Kind.lin].filter fun k => cfg.use k && !false := ⟨_, rfl⟩
  rw [← hkinds]
  obtain ⟨r, hrdef⟩ : ∃ r : Run K, r = (kRange false a b).foldl (fun r k => kinds.foldl (fun r kind => r.interval cfg false kind k) r)
    ⟨fun _ => .init, .empty, [], none⟩ := ⟨_, rfl⟩
  have hint : r.disk.integral = (.empty : Disk K).integral := by
    rw [hrdef]
    have h1 : ∀ (k : Nat) (l : List Kind) (r : Run K), (l.foldl (fun r kind => r.interval cfg false kind k) r).disk.integral = r.disk.integral := by
      intro k l
      induction l with
      | nil => intro r; rfl
      | cons x l ih => intro r; rw [List.foldl_cons, ih, interval_integral]
    have h2 : ∀ (l : List Nat) (r : Run K),
        (l.foldl (fun r k => kinds.foldl (fun r kind => r.interval cfg false kind k) r) r).disk.integral = r.disk.integral := by
      intro l
      induction l with
      | nil => intro r; rfl
      | cons x l ih => intro r; rw [List.foldl_cons, ih, h1]
    rw [h2]
  have hloop : Run.loop cfg false kinds a [b, c] (⟨fun _ => .init, .empty, [], none⟩ : Run K) =
      kinds.foldl (fun r kind => r.save kind c) (kinds.foldl (fun r kind => r.save kind b) r) := by
    show Run.upTo cfg false kinds b c (Run.upTo cfg false kinds a b _) = _
    unfold Run.upTo
    dsimp only
    rw [← hrdef]
    have : kRange false b c = [] := by
      unfold kRange
      rw [if_neg (by simp), show c - b = 0 by omega]
      rfl
    rw [this]
    rfl
  rw [hloop]
  obtain ⟨a1, a2, a3, a4⟩ := saves_effect b kinds r
  obtain ⟨-, -, b3, b4⟩ := saves_effect c kinds (kinds.foldl (fun r kind => r.save kind b) r)
  rw [b4, b3 kind b (by omega), a4, a1, a2, a3 kind c (by omega), hint]
  rfl

/-- **C137**, what goes wrong: so with such a list one of the two files is wrong, if the two integrals are over different times. -/
theorem C137_list_wrong_violated (cfg : Cfg K) {a b c : Nat} (hg : cfg.allInds = [a, b, c]) (hi : cfg.indStart = 0)
    (ho : cfg.onlyOne = false) (hbc : c < b) (kind : Kind)
    (h0 : 0 < spanOf (cfg.slices kind) false a c) (hne : spanOf (cfg.slices kind) false a b ≠ spanOf (cfg.slices kind) false a c) :
    ¬ (Complete cfg false kind a b ((worker cfg false .empty).disk.integral kind b) ∧
      Complete cfg false kind a c ((worker cfg false .empty).disk.integral kind c)) := by
  rw [C137_list_violated cfg hg hi ho hbc kind]
  rintro ⟨h1, h2⟩
  revert h1 h2
  cases (worker cfg false .empty).disk.integral kind b with
  | none => intro _ h2; exact absurd h0 (not_lt.2 h2)
  | some f =>
    cases f with
    | torn => intro h1; exact h1.elim
    | whole v => intro h1 h2; exact hne (h1.2.1.symm.trans h2.2.1)

/-- **C137**: there is an order in which all tasks are done, and every order that goes on long enough is one: it is enough
that every task gets more turns than it has steps. -/
theorem C137_finishes (cfg : τ → Cfg K) (files : τ → Nat → Disk K) {l : List (Task τ)}
    (hv : ∀ t ∈ l, ∃ start, Valid cfg t.1 t.2.1 t.2.2 start) :
    (∀ order : List (Task τ), (∀ t ∈ order, t ∈ l) →
      (∀ t ∈ l, (begin (from' (cfg t.2.1) t.1) t.2.2 (files t.2.1 t.1)).2.length < order.count t) →
      ∀ t ∈ l, Finished (Pool.run cfg files order) t) ∧
    ∃ order : List (Task τ), (∀ t ∈ order, t ∈ l) ∧ ∀ t ∈ l, Finished (Pool.run cfg files order) t := by
  have h1 : ∀ order : List (Task τ), (∀ t ∈ order, t ∈ l) →
      (∀ t ∈ l, (begin (from' (cfg t.2.1) t.1) t.2.2 (files t.2.1 t.1)).2.length < order.count t) →
      ∀ t ∈ l, Finished (Pool.run cfg files order) t := by
    rintro order ho hc ⟨i, tau, rev⟩ ht
    obtain ⟨start, hs⟩ := hv _ ht
    obtain ⟨-, -, -, -, h⟩ := C137_any_order cfg files order (fun t h => hv t (ho t h)) hs
    exact h (hc _ ht)
  refine ⟨h1, ?_⟩
  obtain ⟨N, hN⟩ : ∃ N, ∀ t ∈ l, (begin (from' (cfg t.2.1) t.1) t.2.2 (files t.2.1 t.1)).2.length ≤ N :=
    ⟨(l.map fun t => (begin (from' (cfg t.2.1) t.1) t.2.2 (files t.2.1 t.1)).2.length).sum, fun t ht =>
      List.le_sum_of_mem (List.mem_map.2 ⟨t, ht, rfl⟩)⟩
  have hmem : ∀ t ∈ (List.replicate (N + 1) l).flatten, t ∈ l := by
    intro t ht
    obtain ⟨l', hl', ht⟩ := List.mem_flatten.1 ht
    rw [List.eq_of_mem_replicate hl'] at ht
    exact ht
  refine ⟨(List.replicate (N + 1) l).flatten, hmem, h1 _ hmem fun t ht => ?_⟩
  rw [List.count_flatten, List.map_replicate, List.sum_replicate, smul_eq_mul]
  have h2 : 1 ≤ l.count t := List.count_pos_iff.2 ht
  have h3 := hN t ht
  calc _ < (N + 1) * 1 := by omega
    _ ≤ (N + 1) * l.count t := Nat.mul_le_mul_left _ h2

/-! ### Examples -/

theorem ex_from (lin : Bool) (i start : Nat) (h : ([0, 1, 3] : List Nat)[i]? = some start) : Usable (from' (exCfg lin) i) start where
  grid := (ex_usable lin).grid
  start := h
  files := (ex_usable lin).files
  sqrt := (ex_usable lin).sqrt

/-- Both directions, all starting points. -/
def exStarts : Starts := ⟨.both, false, false, false⟩

/-- Three grid points: forward from the first two, backward from the last two, and an order in which all of them finish. -/
example : ∃ order : List (Task Unit), (∀ t ∈ order, t ∈ tasks exStarts ([0, 1, 3] : List Nat).length [()]) ∧
    (∀ t ∈ tasks exStarts ([0, 1, 3] : List Nat).length [()], Finished (Pool.run (fun _ => exCfg true) (fun _ _ => .empty) order) t) ∧
    tasks exStarts ([0, 1, 3] : List Nat).length [()] = [(0, (), false), (1, (), false), (1, (), true), (2, (), true)] ∧
    Asked exStarts 3 1 true ∧ Target [0, 1, 3] false 1 true 0 := by
  obtain ⟨order, h1, h2⟩ := (C137_finishes (fun _ : Unit => exCfg true) (fun _ _ => .empty)
    (l := tasks exStarts ([0, 1, 3] : List Nat).length [()]) (by
      rintro ⟨i, tau, rev⟩ ht
      obtain ⟨-, hask⟩ := ((C137_tasks exStarts (by decide) (by decide : [()].Nodup)).2 i tau rev).1 ht
      have hi : i < 3 ∧ (rev = true → 0 < i) := by
        cases rev
        · simp [Asked, exStarts] at hask
          exact ⟨by omega, by simp⟩
        · simp [Asked, exStarts] at hask
          exact ⟨by omega, fun _ => by omega⟩
      exact ⟨([0, 1, 3] : List Nat)[i]'hi.1, ex_from true i _ (List.getElem?_eq_getElem hi.1), hi.2⟩)).2
  exact ⟨order, h1, h2, rfl, ⟨trivial, by decide⟩, 0, rfl, by decide, by decide⟩

/-- With the grid points 0, 3 and 1 the integrals to 3 and to 1 take four and three units of time. -/
example : spanOf exSlices false 0 3 ≠ spanOf exSlices false 0 1 ∧ 0 < spanOf exSlices false 0 1 := by
  simp [spanOf, exSlices, List.range'_succ]

end Verif.CovMain
