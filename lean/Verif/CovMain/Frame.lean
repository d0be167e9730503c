import Verif.CovMain.PoolSpec
import Mathlib.Tactic.Tauto

/-!
# Tasks that share a disk: lemmas
-/

namespace Verif.CovMain

open Verif.Scripts

set_option linter.unusedSectionVars false

variable {K : Type} [Field K] [LinearOrder K] [IsStrictOrderedRing K] {τ : Type}

theorem loop_acts (cfg : Cfg K) (reverse : Bool) (kinds : List Kind) (stops : List Nat) :
    ∀ (from_ : Nat) (r : Run K), Run.loop cfg reverse kinds from_ stops r =
      (acts reverse kinds from_ stops).foldl (Act.run cfg reverse) r := by
  induction stops with
  | nil => intro _ _; rfl
  | cons stop stops ih =>
    intro from_ r
    show Run.loop cfg reverse kinds stop stops (r.upTo cfg reverse kinds from_ stop) = _
    rw [ih, acts.eq_2, List.foldl_append, List.foldl_append, List.foldl_map, List.foldl_flatMap]
    have hk : ∀ (r : Run K) (k : Nat), (kinds.map fun kind => Act.interval kind k).foldl (Act.run cfg reverse) r =
        kinds.foldl (fun r kind => r.interval cfg reverse kind k) r := by
      intro r k
      rw [List.foldl_map]
      rfl
    simp only [hk]
    rfl

theorem worker_begin (cfg : Cfg K) (reverse : Bool) (d : Disk K) :
    worker cfg reverse d = (begin cfg reverse d).2.foldl (Act.run cfg reverse) (begin cfg reverse d).1 := by
  unfold worker begin
  dsimp only
  cases cfg.allInds[cfg.indStart]? with
  | none => rfl
  | some start =>
    dsimp only
    cases intStops cfg.allInds cfg.indStart cfg.onlyOne reverse with
    | error e => rfl
    | ok stops =>
      dsimp only
      cases [Kind.expm, Kind.lin].foldlM (resume cfg d reverse start)
          ⟨fun _ => .init, start, stops, fun _ => false, fun _ => 0⟩ with
      | error e => rfl
      | ok p =>
        dsimp only
        split
        · rfl
        · rw [loop_acts]

/-- The files of one direction of time are alike. -/
def Same (reverse : Bool) (start : Nat) (d d' : Disk K) : Prop :=
  (∀ kind stop, After reverse start stop → d.integral kind stop = d'.integral kind stop) ∧
    ∀ k, Passed reverse start k → d.temp (k + 1) = d'.temp (k + 1)

theorem Same.refl (reverse : Bool) (start : Nat) (d : Disk K) : Same reverse start d d := ⟨fun _ _ _ => rfl, fun _ _ => rfl⟩

theorem Same.symm {reverse : Bool} {start : Nat} {d d' : Disk K} (h : Same reverse start d d') : Same reverse start d' d :=
  ⟨fun a b c => (h.1 a b c).symm, fun a b => (h.2 a b).symm⟩

theorem Same.trans {reverse : Bool} {start : Nat} {d d' d'' : Disk K} (h : Same reverse start d d')
    (h' : Same reverse start d' d'') : Same reverse start d d'' :=
  ⟨fun a b c => (h.1 a b c).trans (h'.1 a b c), fun a b => (h.2 a b).trans (h'.2 a b)⟩

/-- The step works on files of its direction of time. -/
def Act.Own (reverse : Bool) (start : Nat) : Act → Prop
  | .interval _ k => Passed reverse start k
  | .save _ stop => After reverse start stop

/-- A write to a file of a direction of time. -/
def OwnWrite (reverse : Bool) (start : Nat) : Write K → Prop
  | .integral _ stop _ => After reverse start stop
  | .temp key _ => ∃ k, key = k + 1 ∧ Passed reverse start k

theorem same_write {reverse : Bool} {start : Nat} {d d' : Disk K} (h : Same reverse start d d') (w : Write K) :
    Same reverse start (d.write w) (d'.write w) := by
  cases w with
  | integral kind stop v =>
    refine ⟨fun kind' stop' ha => ?_, h.2⟩
    show (if _ then _ else _) = (if _ then _ else _)
    rw [h.1 kind' stop' ha]
  | temp key v =>
    refine ⟨h.1, fun k hk => ?_⟩
    show (if _ then _ else _) = (if _ then _ else _)
    rw [h.2 k hk]

theorem same_other {reverse : Bool} {start : Nat} (d : Disk K) {w : Write K} (hw : OwnWrite reverse start w) :
    Same (!reverse) start (d.write w) d := by
  cases w with
  | integral kind stop v =>
    refine ⟨fun kind' stop' ha => ?_, fun _ _ => rfl⟩
    show (if _ then _ else _) = _
    rw [if_neg]
    rintro ⟨-, rfl⟩
    have := after_unique hw ha
    cases reverse <;> cases this
  | temp key v =>
    refine ⟨fun _ _ _ => rfl, fun k hk => ?_⟩
    show (if _ then _ else _) = _
    rw [if_neg]
    obtain ⟨k', rfl, hk'⟩ := hw
    intro he
    have he : k = k' := by omega
    subst he
    have := passed_unique hk' hk
    cases reverse <;> cases this

/-- Two workers that differ at most in the files of the other direction. -/
structure Sim (reverse : Bool) (start : Nat) (r r' : Run K) : Prop where
  st : r.st = r'.st
  log : r.log = r'.log
  failed : r.failed = r'.failed
  disk : Same reverse start r.disk r'.disk

theorem Sim.emit {reverse : Bool} {start : Nat} {r r' : Run K} (h : Sim reverse start r r') (w : Write K) :
    Sim reverse start (r.emit w) (r'.emit w) := by
  refine ⟨h.st, ?_, h.failed, same_write h.disk w⟩
  show r.log ++ [w] = r'.log ++ [w]
  rw [h.log]

theorem sim_compute {cfg : Cfg K} {reverse : Bool} {start : Nat} {r r' : Run K} (h : Sim reverse start r r') (kind : Kind) (k : Nat) :
    Sim reverse start (r.compute cfg reverse kind k) (r'.compute cfg reverse kind k) := by
  unfold Run.compute
  split
  · exact ⟨h.st, h.log, rfl, h.disk⟩
  · dsimp only
    rw [h.st]
    split
    · refine Sim.emit ?_ _
      exact ⟨rfl, h.log, h.failed, h.disk⟩
    · exact ⟨rfl, h.log, h.failed, h.disk⟩

theorem sim_run {cfg : Cfg K} {reverse : Bool} {start : Nat} {r r' : Run K} (h : Sim reverse start r r') {a : Act}
    (ha : a.Own reverse start) : Sim reverse start (a.run cfg reverse r) (a.run cfg reverse r') := by
  cases a with
  | interval kind k =>
    show Sim reverse start (r.interval cfg reverse kind k) (r'.interval cfg reverse kind k)
    unfold Run.interval
    rw [h.failed, h.disk.2 k ha]
    split
    · exact h
    · split
      · split
        · exact sim_compute h kind k
        · exact ⟨h.st, h.log, rfl, h.disk⟩
        · split
          · exact ⟨by rw [h.st], h.log, rfl, h.disk⟩
          · exact ⟨h.st, h.log, rfl, h.disk⟩
      · exact sim_compute h kind k
  | save kind stop =>
    show Sim reverse start (r.save kind stop) (r'.save kind stop)
    unfold Run.save
    rw [h.failed, h.st]
    split
    · exact h
    · split
      · exact h.emit _
      · exact h

/-- What a step writes. -/
theorem run_writes {cfg : Cfg K} {reverse : Bool} {start : Nat} (r : Run K) {a : Act} (ha : a.Own reverse start) :
    ∃ ws : List (Write K), (∀ w ∈ ws, OwnWrite reverse start w) ∧ (a.run cfg reverse r).log = r.log ++ ws ∧
      (a.run cfg reverse r).disk = ws.foldl Disk.write r.disk := by
  have hc : ∀ (kind : Kind) (k : Nat), Passed reverse start k → ∃ ws : List (Write K), (∀ w ∈ ws, OwnWrite reverse start w) ∧
      (r.compute cfg reverse kind k).log = r.log ++ ws ∧ (r.compute cfg reverse kind k).disk = ws.foldl Disk.write r.disk := by
    intro kind k hk
    unfold Run.compute
    split
    · exact ⟨[], by simp, by simp, rfl⟩
    · dsimp only
      split
      · refine ⟨[_], ?_, rfl, rfl⟩
        intro w hw
        rw [List.mem_singleton] at hw
        subst hw
        exact ⟨k, rfl, hk⟩
      · exact ⟨[], by simp, by simp, rfl⟩
  cases a with
  | interval kind k =>
    show ∃ ws : List (Write K), _ ∧ (r.interval cfg reverse kind k).log = _ ∧ (r.interval cfg reverse kind k).disk = _
    unfold Run.interval
    split
    · exact ⟨[], by simp, by simp, rfl⟩
    · split
      · split
        · exact hc kind k ha
        · exact ⟨[], by simp, by simp, rfl⟩
        · split
          · exact ⟨[], by simp, by simp, rfl⟩
          · exact ⟨[], by simp, by simp, rfl⟩
      · exact hc kind k ha
  | save kind stop =>
    show ∃ ws : List (Write K), _ ∧ (r.save kind stop).log = _ ∧ (r.save kind stop).disk = _
    unfold Run.save
    split
    · exact ⟨[], by simp, by simp, rfl⟩
    · split
      · refine ⟨[_], ?_, rfl, rfl⟩
        intro w hw
        rw [List.mem_singleton] at hw
        subst hw
        exact ha
      · exact ⟨[], by simp, by simp, rfl⟩

theorem same_others {reverse : Bool} {start : Nat} (ws : List (Write K)) : ∀ d : Disk K, (∀ w ∈ ws, OwnWrite reverse start w) →
    Same (!reverse) start (ws.foldl Disk.write d) d := by
  induction ws with
  | nil => intro d _; exact Same.refl _ _ _
  | cons w ws ih =>
    intro d h
    exact (ih (d.write w) fun x hx => h x (by simp [hx])).trans (same_other d (h w (by simp)))

/-- All steps write to the end of the log. -/
theorem runs_writes {cfg : Cfg K} {reverse : Bool} {start : Nat} (as : List Act) : ∀ r : Run K, (∀ a ∈ as, a.Own reverse start) →
    ∃ ws : List (Write K), (as.foldl (Act.run cfg reverse) r).log = r.log ++ ws ∧
      (as.foldl (Act.run cfg reverse) r).disk = ws.foldl Disk.write r.disk := by
  induction as with
  | nil => intro r _; exact ⟨[], by simp, rfl⟩
  | cons a as ih =>
    intro r h
    obtain ⟨ws, -, h1, h2⟩ := run_writes (cfg := cfg) r (h a (by simp))
    obtain ⟨ws', h3, h4⟩ := ih (a.run cfg reverse r) fun x hx => h x (by simp [hx])
    refine ⟨ws ++ ws', ?_, ?_⟩
    · rw [List.foldl_cons, h3, h1, List.append_assoc]
    · rw [List.foldl_cons, h4, h2, List.foldl_append]

/-- At the starting point or after it. -/
def Reached (reverse : Bool) (start a : Nat) : Prop := a = start ∨ After reverse start a

theorem acts_own {reverse : Bool} {start : Nat} {kinds : List Kind} (stops : List Nat) : ∀ from_, Reached reverse start from_ →
    (∀ s ∈ stops, After reverse start s) → ∀ a ∈ acts reverse kinds from_ stops, a.Own reverse start := by
  induction stops with
  | nil => intro _ _ _ a ha; cases ha
  | cons stop stops ih =>
    intro from_ hf hs a ha
    unfold acts at ha
    simp only [List.mem_append, List.mem_flatMap, List.mem_map] at ha
    rcases ha with (⟨k, hk, kind, -, rfl⟩ | ⟨kind, -, rfl⟩) | ha
    · show Passed reverse start k
      unfold kRange at hk
      unfold Reached After at hf
      unfold Passed
      cases reverse
      · simp only [Bool.false_eq_true, if_false, List.mem_range'_1] at hk hf ⊢
        omega
      · simp only [if_true, List.mem_reverse, List.mem_range'_1] at hk hf ⊢
        omega
    · exact hs stop (by simp)
    · exact ih stop (.inr (hs stop (by simp))) (fun s h => hs s (by simp [h])) a ha

theorem existing_congr {d d' : Disk K} {kind : Kind} {stops : List Nat}
    (h : ∀ s ∈ stops, d.integral kind s = d'.integral kind s) : existing d kind stops = existing d' kind stops := by
  unfold existing
  congr 1
  induction stops with
  | nil => rfl
  | cons s stops ih =>
    rw [List.takeWhile_cons, List.takeWhile_cons, h s (by simp), ih fun x hx => h x (by simp [hx])]

theorem resume_congr {cfg : Cfg K} {d d' : Disk K} {reverse : Bool} {start : Nat} {p : Plan K} {kind : Kind}
    (h : ∀ s ∈ p.stops, d.integral kind s = d'.integral kind s) :
    resume cfg d reverse start p kind = resume cfg d' reverse start p kind := by
  unfold resume
  rw [existing_congr h]
  dsimp only
  split
  · rfl
  · split
    · rfl
    · split
      · rfl
      · next h0 h1 =>
        have hle : existing d' kind p.stops ≤ p.stops.length := (List.takeWhile_sublist _).length_le
        have hm : p.stops.getD (existing d' kind p.stops - 1) 0 ∈ p.stops := by
          rw [List.getD_eq_getElem?_getD, List.getElem?_eq_getElem (by omega)]
          exact List.getElem_mem _
        rw [h _ hm]

theorem resume_keeps {cfg : Cfg K} {d : Disk K} {reverse : Bool} {start : Nat} {p p' : Plan K} {kind : Kind}
    (h : resume cfg d reverse start p kind = .ok p') :
    (∀ s ∈ p'.stops, s ∈ p.stops) ∧ (p'.from_ = p.from_ ∨ p'.from_ ∈ p.stops) := by
  unfold resume at h
  dsimp only at h
  split at h
  · cases h; exact ⟨fun _ => id, .inl rfl⟩
  · split at h
    · cases h; exact ⟨fun _ => id, .inl rfl⟩
    · split at h
      · cases h; exact ⟨fun _ => id, .inl rfl⟩
      · next h0 h1 =>
        have hle : existing d kind p.stops ≤ p.stops.length := (List.takeWhile_sublist _).length_le
        have hm : p.stops.getD (existing d kind p.stops - 1) 0 ∈ p.stops := by
          rw [List.getD_eq_getElem?_getD, List.getElem?_eq_getElem (by omega)]
          exact List.getElem_mem _
        split at h
        · split at h
          · cases h
          · split at h
            · cases h
            · cases h
              exact ⟨fun s hs => List.mem_of_mem_drop hs, .inr hm⟩
        · cases h

theorem plan_congr {cfg : Cfg K} {d d' : Disk K} {reverse : Bool} {start : Nat} {stops : List Nat}
    (hs : ∀ s ∈ stops, After reverse start s) (h : Same reverse start d d') (kinds : List Kind) :
    ∀ p : Plan K, (∀ s ∈ p.stops, s ∈ stops) →
      kinds.foldlM (resume cfg d reverse start) p = kinds.foldlM (resume cfg d' reverse start) p := by
  induction kinds with
  | nil => intro _ _; rfl
  | cons kind kinds ih =>
    intro p hp
    rw [List.foldlM_cons, List.foldlM_cons, resume_congr (d' := d') fun s hm => h.1 kind s (hs s (hp s hm))]
    cases hr : resume cfg d' reverse start p kind with
    | error e => rfl
    | ok p' => exact ih p' fun s hm => hp s ((resume_keeps hr).1 s hm)

theorem plan_keeps {cfg : Cfg K} {d : Disk K} {reverse : Bool} {start : Nat} (kinds : List Kind) :
    ∀ p p' : Plan K, kinds.foldlM (resume cfg d reverse start) p = .ok p' →
      (∀ s ∈ p'.stops, s ∈ p.stops) ∧ (p'.from_ = p.from_ ∨ p'.from_ ∈ p.stops) := by
  induction kinds with
  | nil => intro p p' h; cases h; exact ⟨fun _ => id, .inl rfl⟩
  | cons kind kinds ih =>
    intro p p' h
    rw [List.foldlM_cons] at h
    cases hr : resume cfg d reverse start p kind with
    | error e => rw [hr] at h; cases h
    | ok p1 =>
      rw [hr] at h
      obtain ⟨h1, h2⟩ := ih p1 p' h
      obtain ⟨h3, h4⟩ := resume_keeps hr
      refine ⟨fun s hs => h3 s (h1 s hs), ?_⟩
      rcases h2 with h2 | h2
      · rw [h2]; exact h4
      · exact .inr (h3 _ h2)

/-- The beginning of a worker reads the files of its direction only, and its steps work on these. -/
theorem begin_same {cfg : Cfg K} {start : Nat} (hu : Usable cfg start) {reverse : Bool} (hr : reverse = true → 0 < cfg.indStart)
    {d d' : Disk K} (h : Same reverse start d d') :
    (begin cfg reverse d).2 = (begin cfg reverse d').2 ∧ Sim reverse start (begin cfg reverse d).1 (begin cfg reverse d').1 ∧
      (begin cfg reverse d).1.disk = d ∧ (begin cfg reverse d).1.log = [] ∧
      ∀ a ∈ (begin cfg reverse d).2, a.Own reverse start := by
  unfold begin
  rw [hu.start]
  dsimp only
  cases hst : intStops cfg.allInds cfg.indStart cfg.onlyOne reverse with
  | error e => exact ⟨rfl, ⟨rfl, rfl, rfl, h⟩, rfl, rfl, by simp⟩
  | ok stops =>
    have hafter : ∀ s ∈ stops, After reverse start s := (List.pairwise_cons.1 (intStops_spec hu hr hst).1).1
    dsimp only
    rw [plan_congr hafter h _ _ fun _ => id]
    cases hp : [Kind.expm, Kind.lin].foldlM (resume cfg d' reverse start)
        ⟨fun _ => .init, start, stops, fun _ => false, fun _ => 0⟩ with
    | error e => exact ⟨rfl, ⟨rfl, rfl, rfl, h⟩, rfl, rfl, by simp⟩
    | ok p =>
      dsimp only
      split
      · exact ⟨rfl, ⟨rfl, rfl, rfl, h⟩, rfl, rfl, by simp⟩
      · refine ⟨rfl, ⟨rfl, rfl, rfl, h⟩, rfl, rfl, ?_⟩
        obtain ⟨h1, h2⟩ := plan_keeps _ _ _ hp
        refine acts_own _ _ ?_ fun s hs => hafter s (h1 s hs)
        rcases h2 with h2 | h2
        · exact .inl h2
        · exact .inr (hafter _ h2)

end Verif.CovMain
