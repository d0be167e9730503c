import Verif.Scripts.CovRun
import Mathlib.Analysis.Real.Sqrt
import Mathlib.Tactic.NormNum

/-!
# Covariance integrals: property C50
-/

set_option linter.dupNamespace false
set_option linter.unusedSectionVars false
set_option linter.unusedSimpArgs false

namespace Verif.Scripts

open Verif.Trans Verif.Flow Verif.Autocov

variable {K : Type} [Field K] [LinearOrder K] [IsStrictOrderedRing K]

/-! ## The end points -/

theorem intStops_spec {cfg : Cfg K} {start : Nat} (h : Usable cfg start) {reverse : Bool}
    (hr : reverse = true → 0 < cfg.indStart) {stops : List Nat}
    (hs : intStops cfg.allInds cfg.indStart cfg.onlyOne reverse = .ok stops) :
    (start :: stops).Pairwise (After reverse) ∧ ∀ s ∈ stops, s ∈ cfg.allInds := by
  obtain ⟨hlt, hget⟩ := List.getElem?_eq_some_iff.1 h.start
  have hg := List.pairwise_iff_getElem.1 h.grid
  have hfull : ∀ l : List Nat, l.Sublist (if reverse then (cfg.allInds.take cfg.indStart).reverse else
      cfg.allInds.drop (cfg.indStart + 1)) → (start :: l).Pairwise (After reverse) ∧ ∀ s ∈ l, s ∈ cfg.allInds := by
    intro l hl
    cases reverse
    · simp only [Bool.false_eq_true, if_false] at hl
      have hpw : (start :: cfg.allInds.drop (cfg.indStart + 1)).Pairwise (After false) := by
        rw [← hget, ← List.drop_eq_getElem_cons hlt]
        exact (h.grid.sublist (List.drop_sublist _ _)).imp (fun hab => hab)
      exact ⟨hpw.sublist (List.Sublist.cons_cons _ hl), fun s hs => List.mem_of_mem_drop (hl.subset hs)⟩
    · simp only [if_true] at hl
      have hpw : (start :: (cfg.allInds.take cfg.indStart).reverse).Pairwise (After true) := by
        have h1 : (start :: (cfg.allInds.take cfg.indStart).reverse) = (cfg.allInds.take (cfg.indStart + 1)).reverse := by
          rw [List.take_succ_eq_append_getElem hlt, List.reverse_append, hget]; rfl
        rw [h1, List.pairwise_reverse]
        exact (h.grid.sublist (List.take_sublist _ _)).imp (fun hab => hab)
      exact ⟨hpw.sublist (List.Sublist.cons_cons _ hl), fun s hs =>
        List.mem_of_mem_take (List.mem_reverse.1 (hl.subset hs))⟩
  apply hfull
  cases reverse
  · simp only [intStops, Bool.false_eq_true, if_false] at hs ⊢
    cases ho : cfg.onlyOne
    · rw [ho] at hs
      simp only [Bool.false_eq_true, if_false] at hs
      injection hs with hs
      rw [hs]
    · rw [ho] at hs
      simp only [if_true] at hs
      split at hs
      · cases hs
      · next s hsome =>
        injection hs with hs
        rw [← hs]
        obtain ⟨a, b⟩ := List.getElem?_eq_some_iff.1 hsome
        rw [List.drop_eq_getElem_cons a, b]
        simp
  · simp only [intStops, if_true, if_neg (by have := hr rfl; omega : ¬ cfg.indStart = 0)] at hs ⊢
    cases ho : cfg.onlyOne
    · rw [ho] at hs
      simp only [Bool.false_eq_true, if_false] at hs
      injection hs with hs
      rw [hs]
    · rw [ho] at hs
      simp only [if_true] at hs
      split at hs
      · cases hs
      · next s r hsome =>
        injection hs with hs
        rw [← hs, hsome]
        simp

/-! ## Search for existing files -/

/-- What is known during the search. -/
structure PlanOk (cfg : Cfg K) (reverse : Bool) (start : Nat) (d : Disk K) (stops : List Nat) (p : Plan K) : Prop where
  chain : (p.from_ :: p.stops).Pairwise (After reverse)
  origin : p.from_ = start ∨ After reverse start p.from_
  at' : ∀ kind, cfg.use kind = true → p.all kind = false → At cfg reverse start kind p.from_ (p.st kind)
  all : ∀ kind, cfg.use kind = true → p.all kind = true → ∀ s ∈ stops, (d.integral kind s).isSome
  rest : ∀ kind, cfg.use kind = true → ∀ s ∈ stops, s ∈ p.stops ∨ (d.integral kind s).isSome
  sub : ∀ s ∈ p.stops, s ∈ stops
  found : cfg.use .expm = true → cfg.use .lin = true → ∀ kind, p.all kind = false → p.found kind = 0

theorem existing_isSome (d : Disk K) (kind : Kind) (stops : List Nat) : ∀ i, (hi : i < existing d kind stops) →
    ∃ h : i < stops.length, (d.integral kind stops[i]).isSome := by
  intro i hi
  have hle : existing d kind stops ≤ stops.length := (List.takeWhile_sublist _).length_le
  have hil : i < stops.length := by omega
  refine ⟨hil, ?_⟩
  have h1 : stops[i] = (stops.takeWhile fun s => (d.integral kind s).isSome)[i]'hi := by
    have := List.takeWhile_append_dropWhile (p := fun s => (d.integral kind s).isSome) (l := stops)
    have h2 : stops[i]? = (stops.takeWhile fun s => (d.integral kind s).isSome)[i]? := by
      conv_lhs => rw [← this]
      rw [List.getElem?_append_left hi]
    rw [List.getElem?_eq_getElem hil, List.getElem?_eq_getElem hi] at h2
    injection h2
  rw [h1]
  have := List.all_eq_true.1 (List.all_takeWhile (p := fun s => (d.integral kind s).isSome) (l := stops)) _ (List.getElem_mem hi)
  exact this

theorem resume_spec {cfg : Cfg K} {start : Nat} (h : Usable cfg start) {d : Disk K} (hd : Good cfg start d)
    {reverse : Bool} {stops : List Nat} (hmem : ∀ s ∈ stops, s ∈ cfg.allInds) {p : Plan K}
    (hp : PlanOk cfg reverse start d stops p) (kind : Kind) :
    (∃ p', resume cfg d reverse start p kind = .ok p' ∧ PlanOk cfg reverse start d stops p' ∧
      (p'.stops = p.stops ∨ cfg.use .lin ≠ cfg.use .expm)) ∨
    (cfg.use .lin = cfg.use .expm ∧ existing d kind p.stops ≠ 0 ∧ existing d kind p.stops ≠ p.stops.length ∧
      ∃ e, resume cfg d reverse start p kind = .error e) := by
  unfold resume
  cases hu : cfg.use kind
  · exact .inl ⟨p, by simp, hp, .inl rfl⟩
  simp only [Bool.not_true, Bool.false_eq_true, if_false]
  by_cases h0 : existing d kind p.stops = 0
  · exact .inl ⟨p, by simp [h0], hp, .inl rfl⟩
  rw [if_neg h0]
  by_cases hl : existing d kind p.stops = p.stops.length
  · rw [if_pos hl]
    refine .inl ⟨_, rfl, ⟨hp.chain, hp.origin, ?_, ?_, hp.rest, hp.sub, ?_⟩, .inl rfl⟩
    · intro kind' hu' ha
      by_cases hk : kind' = kind
      · subst hk; simp [setKind] at ha
      · simp only [setKind, if_neg hk] at ha
        exact hp.at' kind' hu' ha
    · intro kind' hu' ha s hs
      by_cases hk : kind' = kind
      · subst hk
        rcases hp.rest kind' hu' s hs with h1 | h1
        · obtain ⟨i, hi, rfl⟩ := List.getElem_of_mem h1
          exact (existing_isSome d kind' p.stops i (by omega)).2
        · exact h1
      · simp only [setKind, if_neg hk] at ha
        exact hp.all kind' hu' ha s hs
    · intro h1 h2 kind' ha
      by_cases hk : kind' = kind
      · subst hk; simp [setKind] at ha
      · simp only [setKind, if_neg hk] at ha ⊢
        exact hp.found h1 h2 kind' ha
  · rw [if_neg hl]
    have hle : existing d kind p.stops ≤ p.stops.length := (List.takeWhile_sublist _).length_le
    obtain ⟨hi, hsome⟩ := existing_isSome d kind p.stops (existing d kind p.stops - 1) (by omega)
    have hgd : p.stops.getD (existing d kind p.stops - 1) 0 = p.stops[existing d kind p.stops - 1] := by
      rw [List.getD_eq_getElem?_getD, List.getElem?_eq_getElem hi, Option.getD_some]
    rw [hgd]
    have hin : p.stops[existing d kind p.stops - 1] ∈ p.stops := List.getElem_mem hi
    have haft : After reverse start p.stops[existing d kind p.stops - 1] := by
      have h1 := (List.pairwise_cons.1 hp.chain).1 _ hin
      rcases hp.origin with h2 | h2
      · rw [← h2]; exact h1
      · exact after_trans h2 h1
    obtain ⟨f, hf⟩ := Option.isSome_iff_exists.1 hsome
    have hc := hd.integral reverse kind _ f hu haft hf
    rw [hf]
    match f, hc with
    | .torn, hc => exact hc.elim
    | .whole v, hc =>
      obtain ⟨c1, c2, c3⟩ := hc
      dsimp only
      have hfiles : ∀ k, k < max start p.stops[existing d kind p.stops - 1] →
          ∃ s, cfg.slices kind k = some s ∧ s.Sound cfg.n := by
        intro k hk
        rcases le_total start p.stops[existing d kind p.stops - 1] with hh | hh
        · rw [max_eq_right hh] at hk
          exact h.files kind hu _ (hmem _ (hp.sub _ hin)) k hk
        · rw [max_eq_left hh] at hk
          exact h.files kind hu start (List.mem_of_getElem? h.start) k hk
      obtain ⟨T, hT1, hT2⟩ := loadTrans_spec (cfg := cfg) kind reverse haft hfiles
      rw [hT1]
      dsimp only
      by_cases hm : cfg.use .lin = cfg.use .expm
      · exact .inr ⟨hm, h0, hl, .assertion, by rw [if_pos hm]⟩
      · rw [if_neg hm]
        have honly : ∀ kind', cfg.use kind' = true → kind' = kind := by
          intro kind' hu'
          cases kind <;> cases kind' <;> simp_all
        refine .inl ⟨_, rfl, ⟨?_, .inr haft, ?_, ?_, ?_, ?_, ?_⟩, .inr hm⟩
        · have h1 := List.Pairwise.of_cons hp.chain
          have h2 : p.stops[existing d kind p.stops - 1] :: p.stops.drop (existing d kind p.stops) =
              p.stops.drop (existing d kind p.stops - 1) := by
            rw [List.drop_eq_getElem_cons hi]
            congr 2
            omega
          show (p.stops[existing d kind p.stops - 1] :: p.stops.drop (existing d kind p.stops)).Pairwise (After reverse)
          rw [h2]
          exact h1.sublist (List.drop_sublist _ _)
        · intro kind' hu' _
          obtain rfl := honly kind' hu'
          simp only [setKind, if_true]
          refine ⟨hT2, ?_, rfl⟩
          intro i hi j hj hij
          show v.itpt i j = _
          rw [c3 i hi j hj, if_pos hij]
        · exact hp.all
        · intro kind' hu' s hs
          obtain rfl := honly kind' hu'
          rcases hp.rest kind' hu' s hs with h1 | h1
          · obtain ⟨i, hi, rfl⟩ := List.getElem_of_mem h1
            by_cases hlt : i < existing d kind' p.stops
            · exact .inr (existing_isSome d kind' p.stops i hlt).2
            · left
              show p.stops[i] ∈ p.stops.drop (existing d kind' p.stops)
              rw [List.mem_drop_iff_getElem]
              exact ⟨i - existing d kind' p.stops, by omega, by congr 1; omega⟩
          · exact .inr h1
        · intro s hs
          exact hp.sub s (List.mem_of_mem_drop hs)
        · intro h1 h2
          exact absurd (h2.trans h1.symm) hm

/-! ## The worker -/

theorem planOk_init {cfg : Cfg K} {start : Nat} (reverse : Bool) (d : Disk K) {stops : List Nat}
    (hpw : (start :: stops).Pairwise (After reverse)) :
    PlanOk cfg reverse start d stops ⟨fun _ => .init, start, stops, fun _ => false, fun _ => 0⟩ where
  chain := hpw
  origin := .inl rfl
  at' := fun kind _ _ => by
    show Agree cfg.n Integ.init (stepsOf (cfg.slices kind) reverse start start) (spanOf (cfg.slices kind) reverse start start)
    rw [stepsOf_self, spanOf_self]
    exact agree_init cfg.n
  all := fun _ _ h => by cases h
  rest := fun _ _ s hs => .inl hs
  sub := fun s hs => hs
  found := fun _ _ _ _ => rfl

theorem foldlM_two_ok {α β ε : Type} {f : α → β → Except ε α} {a a1 : α} {b1 b2 : β} {x : Except ε α}
    (h1 : f a b1 = .ok a1) (h2 : f a1 b2 = x) : [b1, b2].foldlM f a = x := by
  rw [List.foldlM_cons, h1]
  show [b2].foldlM f a1 = x
  rw [List.foldlM_cons, h2]
  cases x <;> rfl

theorem foldlM_two_error {α β ε : Type} {f : α → β → Except ε α} {a : α} {b1 b2 : β} {e : ε}
    (h1 : f a b1 = .error e) : [b1, b2].foldlM f a = .error e := by
  rw [List.foldlM_cons, h1]
  rfl

theorem worker_spec {cfg : Cfg K} {start : Nat} (h : Usable cfg start) {d : Disk K} (hd : Good cfg start d)
    {reverse : Bool} (hr : reverse = true → 0 < cfg.indStart) :
    ((worker cfg reverse d).failed = none → ∃ stops, intStops cfg.allInds cfg.indStart cfg.onlyOne reverse = .ok stops ∧
      Live cfg start d (worker cfg reverse d) ∧
      ∀ kind, cfg.use kind = true → ∀ s ∈ stops, Complete cfg reverse kind start s ((worker cfg reverse d).disk.integral kind s)) ∧
    ((worker cfg reverse d).failed ≠ none → (worker cfg reverse d).log = [] ∧ (worker cfg reverse d).disk = d) ∧
    (∀ stops, intStops cfg.allInds cfg.indStart cfg.onlyOne reverse = .ok stops →
      (cfg.use .lin ≠ cfg.use .expm ∨ ∀ kind, existing d kind stops = 0 ∨ existing d kind stops = stops.length) →
      (worker cfg reverse d).failed = none) := by
  unfold worker
  rw [h.start]
  dsimp only
  cases hst : intStops cfg.allInds cfg.indStart cfg.onlyOne reverse with
  | error e => exact ⟨fun hc => (nomatch hc), fun _ => ⟨rfl, rfl⟩, fun _ hc => (nomatch hc)⟩
  | ok stops =>
    dsimp only
    obtain ⟨hpw, hmem⟩ := intStops_spec h hr hst
    have hinit := planOk_init (cfg := cfg) reverse d hpw
    rcases resume_spec h hd hmem hinit .expm with ⟨p1, e1, ok1, hs1⟩ | ⟨a1, a2, a3, e, e1⟩
    · rcases resume_spec h hd hmem ok1 .lin with ⟨p2, e2, ok2, hs2⟩ | ⟨a1, a2, a3, e, e2⟩
      · rw [foldlM_two_ok e1 e2]
        dsimp only
        set kinds := [Kind.expm, Kind.lin].filter fun k => cfg.use k && !p2.all k with hkinds
        have hkmem : ∀ kind, kind ∈ kinds ↔ cfg.use kind = true ∧ p2.all kind = false := by
          intro kind
          rw [hkinds, List.mem_filter]
          cases kind <;> simp
        have hnd : kinds.Nodup := List.Nodup.filter _ (by decide)
        have hnot : ¬ (kinds.length = 2 ∧ 0 < p2.found Kind.expm ∧ 2 < p2.found Kind.lin) := by
          rintro ⟨b1, b2, -⟩
          have hall : kinds = [Kind.expm, Kind.lin] :=
            List.Sublist.eq_of_length (List.filter_sublist) (by rw [b1]; rfl)
          have hx := (hkmem .expm).1 (by rw [hall]; simp)
          have hy := (hkmem .lin).1 (by rw [hall]; simp)
          have := ok2.found hx.1 hy.1 .expm hx.2
          omega
        rw [if_neg hnot]
        have hlive : Live cfg start d (⟨p2.st, d, [], none⟩ : Run K) :=
          ⟨rfl, rfl, fun ws hws => by rw [List.prefix_nil.1 hws]; exact hd⟩
        obtain ⟨l1, l2, l3⟩ := loop_spec h.sqrt hnd (fun kind hk => ((hkmem kind).1 hk).1) p2.stops (by
          intro kind hk s hs k hk2
          have hu := ((hkmem kind).1 hk).1
          rcases le_total start s with hh | hh
          · rw [max_eq_right hh] at hk2
            exact h.files kind hu _ (hmem _ (ok2.sub _ hs)) k hk2
          · rw [max_eq_left hh] at hk2
            exact h.files kind hu start (List.mem_of_getElem? h.start) k hk2)
          p2.from_ ok2.chain ok2.origin _ hlive (by
            intro kind hk
            obtain ⟨b1, b2⟩ := (hkmem kind).1 hk
            exact ok2.at' kind b1 b2)
        refine ⟨fun _ => ⟨stops, rfl, l1, ?_⟩, fun hc => absurd l1.failed hc, fun _ _ _ => l1.failed⟩
        intro kind hu s hs
        have haft : After reverse start s := (List.pairwise_cons.1 hpw).1 s hs
        have hthere : (d.integral kind s).isSome →
            ¬ (kind ∈ kinds ∧ s ∈ p2.stops) →
            Complete cfg reverse kind start s ((Run.loop cfg reverse kinds p2.from_ p2.stops ⟨p2.st, d, [], none⟩).disk.integral kind s) := by
          intro hsome hno
          have e := l3 kind s hno
          dsimp only at e
          rw [e]
          obtain ⟨f, hf⟩ := Option.isSome_iff_exists.1 hsome
          rw [hf]
          exact hd.integral reverse kind s f hu haft hf
        by_cases hk : kind ∈ kinds
        · by_cases hs2 : s ∈ p2.stops
          · exact l2 kind hk s hs2
          · exact hthere ((ok2.rest kind hu s hs).resolve_left hs2) (fun hc => hs2 hc.2)
        · have hall : p2.all kind = true := by
            cases ha : p2.all kind
            · exact absurd ((hkmem kind).2 ⟨hu, ha⟩) hk
            · rfl
          exact hthere (ok2.all kind hu hall s hs) (fun hc => hk hc.1)
      · rw [foldlM_two_ok e1 e2]
        refine ⟨fun hc => (nomatch hc), fun _ => ⟨rfl, rfl⟩, ?_⟩
        intro stops' hst' hmode
        injection hst' with hst'
        subst hst'
        rcases hmode with hmode | hmode
        · exact absurd a1 hmode
        · rcases hs1 with hs1 | hs1
          · rw [hs1] at a2 a3
            rcases hmode .lin with hm | hm
            · exact absurd hm a2
            · exact absurd hm a3
          · exact absurd a1 hs1
    · rw [foldlM_two_error e1]
      refine ⟨fun hc => (nomatch hc), fun _ => ⟨rfl, rfl⟩, ?_⟩
      intro stops' hst' hmode
      injection hst' with hst'
      subst hst'
      rcases hmode with hmode | hmode
      · exact absurd a1 hmode
      · rcases hmode .expm with hm | hm
        · exact absurd hm a2
        · exact absurd hm a3

theorem crashes_good {cfg : Cfg K} {start : Nat} (h : Usable cfg start) {d : Disk K} (hd : Crashes cfg d) :
    Good cfg start d := by
  induction hd with
  | start => exact good_empty cfg start
  | @run d reverse ws _ hr hws ih =>
    obtain ⟨h1, h2, -⟩ := worker_spec h ih hr
    by_cases hf : (worker cfg reverse d).failed = none
    · obtain ⟨-, -, hl, -⟩ := h1 hf
      exact hl.good ws hws
    · rw [(h2 hf).1] at hws
      rw [List.prefix_nil.1 hws]
      exact ih

/-- **C50**.  The integrals of one kind, after any number of runs in either direction that were
stopped between two writes: the next run ends without an exception, and then there is exactly one
file for each end point, with the upper triangle of the integral from the start to the end point, and
the integrated time; only end points where no time was integrated have no file. -/
theorem C50_resumed_partial {cfg : Cfg K} {start : Nat} (h : Usable cfg start) (hone : cfg.use .lin ≠ cfg.use .expm)
    {d : Disk K} (hd : Crashes cfg d) {reverse : Bool} (hr : reverse = true → 0 < cfg.indStart) {stops : List Nat}
    (hs : intStops cfg.allInds cfg.indStart cfg.onlyOne reverse = .ok stops) :
    (worker cfg reverse d).failed = none ∧ ∀ kind, cfg.use kind = true → ∀ stop ∈ stops,
      Complete cfg reverse kind start stop ((worker cfg reverse d).disk.integral kind stop) := by
  obtain ⟨h1, -, h3⟩ := worker_spec h (crashes_good h hd) hr
  have hf := h3 stops hs (.inl hone)
  obtain ⟨stops', hs', -, hc⟩ := h1 hf
  rw [hs] at hs'
  injection hs' with hs'
  subst hs'
  exact ⟨hf, hc⟩

/-- **C50**, both kinds in one run.  A run from an empty disk computes all integrals. -/
theorem C50_first_run {cfg : Cfg K} {start : Nat} (h : Usable cfg start) {reverse : Bool}
    (hr : reverse = true → 0 < cfg.indStart) {stops : List Nat}
    (hs : intStops cfg.allInds cfg.indStart cfg.onlyOne reverse = .ok stops) :
    (worker cfg reverse .empty).failed = none ∧ ∀ kind, cfg.use kind = true → ∀ stop ∈ stops,
      Complete cfg reverse kind start stop ((worker cfg reverse .empty).disk.integral kind stop) := by
  obtain ⟨h1, -, h3⟩ := worker_spec h (good_empty cfg start) hr
  have hf := h3 stops hs (.inr fun kind => .inl (by
    unfold existing
    cases stops with
    | nil => rfl
    | cons s r => rfl))
  obtain ⟨stops', hs', -, hc⟩ := h1 hf
  rw [hs] at hs'
  injection hs' with hs'
  subst hs'
  exact ⟨hf, hc⟩

/-! ## Runs that can never be resumed -/

/-- **C50** fails when both kinds are computed in one run, which is the default: if a run stopped when
some of the exponential integrals were saved, but not all, every later run fails before it computes
anything, whatever is on the disk otherwise. -/
theorem C50_both_kinds_violated {cfg : Cfg K} (hboth : cfg.use .expm = true ∧ cfg.use .lin = true) {d : Disk K}
    {reverse : Bool} {stops : List Nat} (hs : intStops cfg.allInds cfg.indStart cfg.onlyOne reverse = .ok stops)
    (h0 : existing d .expm stops ≠ 0) (h1 : existing d .expm stops ≠ stops.length) (m : Nat) :
    (worker cfg reverse d).failed ≠ none ∧ (worker cfg reverse d).log = [] ∧
      (fun d => (worker cfg reverse d).disk)^[m] d = d := by
  have hmain : (worker cfg reverse d).failed ≠ none ∧ (worker cfg reverse d).log = [] ∧ (worker cfg reverse d).disk = d := by
    unfold worker
    cases cfg.allInds[cfg.indStart]? with
    | none => exact ⟨by simp, rfl, rfl⟩
    | some start =>
      dsimp only
      rw [hs]
      dsimp only
      have : ∃ e, resume cfg d reverse start ⟨fun _ => .init, start, stops, fun _ => false, fun _ => 0⟩ .expm = .error e := by
        unfold resume
        simp only [hboth.1, Bool.not_true, Bool.false_eq_true, if_false, if_neg h0, if_neg h1]
        split
        · split
          · exact ⟨_, rfl⟩
          · rw [hboth.2, if_pos rfl]
            exact ⟨_, rfl⟩
        · exact ⟨_, rfl⟩
      obtain ⟨e, he⟩ := this
      rw [foldlM_two_error he]
      exact ⟨by simp, rfl, rfl⟩
  refine ⟨hmain.1, hmain.2.1, ?_⟩
  induction m with
  | zero => rfl
  | succ m ih => rw [Function.iterate_succ', Function.comp, ih]; exact hmain.2.2

/-- **C50** fails for a run stopped while it was writing a file: the end of the file is missing, but
later runs take it for a complete one.  Unless it was the file of the last end point they fail before they
compute anything. -/
theorem C50_torn_violated {cfg : Cfg K} {kind : Kind} (hu : cfg.use kind = true)
    (hone : cfg.use .lin ≠ cfg.use .expm) {d : Disk K}
    {reverse : Bool} {stops : List Nat} (hs : intStops cfg.allInds cfg.indStart cfg.onlyOne reverse = .ok stops)
    {m : Nat} {stop : Nat} (hm : m + 1 < stops.length) (hstop : stops[m]? = some stop)
    (hall : ∀ s ∈ stops.take m, (d.integral kind s).isSome) (htorn : d.integral kind stop = some .torn)
    (hnext : ∀ s, stops[m + 1]? = some s → d.integral kind s = none) (j : Nat) :
    (worker cfg reverse d).failed ≠ none ∧ (worker cfg reverse d).log = [] ∧
      (fun d => (worker cfg reverse d).disk)^[j] d = d := by
  have hex : existing d kind stops = m + 1 := by
    have h1 : stops = stops.take m ++ stop :: stops[m + 1] :: stops.drop (m + 2) := by
      conv_lhs => rw [← List.take_append_drop m stops]
      congr 1
      obtain ⟨ha, hb⟩ := List.getElem?_eq_some_iff.1 hstop
      rw [List.drop_eq_getElem_cons ha, hb, List.drop_eq_getElem_cons hm]
    have h2 : stops.takeWhile (fun s => (d.integral kind s).isSome) = stops.take m ++ [stop] := by
      conv_lhs => rw [h1]
      rw [List.takeWhile_append_of_pos hall]
      congr 1
      rw [List.takeWhile_cons_of_pos (by rw [htorn]; rfl), List.takeWhile_cons_of_neg]
      rw [hnext _ (List.getElem?_eq_getElem hm)]
      simp
    unfold existing
    rw [h2, List.length_append, List.length_take]
    simp; omega
  have hmain : (worker cfg reverse d).failed ≠ none ∧ (worker cfg reverse d).log = [] ∧ (worker cfg reverse d).disk = d := by
    unfold worker
    cases cfg.allInds[cfg.indStart]? with
    | none => exact ⟨by simp, rfl, rfl⟩
    | some start =>
      dsimp only
      rw [hs]
      dsimp only
      have hk : resume cfg d reverse start ⟨fun _ => .init, start, stops, fun _ => false, fun _ => 0⟩ kind = .error .unpickle := by
        unfold resume
        simp only [hu, Bool.not_true, Bool.false_eq_true, if_false, hex]
        rw [if_neg (by omega), if_neg (by omega)]
        have : stops.getD (m + 1 - 1) 0 = stop := by
          rw [List.getD_eq_getElem?_getD, Nat.add_sub_cancel, hstop]; rfl
        rw [this, htorn]
      cases kind with
      | expm =>
        rw [foldlM_two_error hk]
        exact ⟨by simp, rfl, rfl⟩
      | lin =>
        have he : cfg.use .expm = false := by
          cases h : cfg.use .expm
          · rfl
          · exact absurd (hu.trans h.symm) hone
        have hx : resume cfg d reverse start ⟨fun _ => .init, start, stops, fun _ => false, fun _ => 0⟩ .expm =
            .ok ⟨fun _ => .init, start, stops, fun _ => false, fun _ => 0⟩ := by
          unfold resume
          simp [he]
        rw [foldlM_two_ok hx hk]
        exact ⟨by simp, rfl, rfl⟩
  refine ⟨hmain.1, hmain.2.1, ?_⟩
  induction j with
  | zero => rfl
  | succ j ih => rw [Function.iterate_succ', Function.comp, ih]; exact hmain.2.2

/-! ## Temporary files that cannot be read -/

/-- The intervals that are passed on the way to the end points. -/
def passed (reverse : Bool) : Nat → List Nat → List Nat
  | _, [] => []
  | from_, stop :: rest => kRange reverse from_ stop ++ passed reverse stop rest

theorem interval_failed (cfg : Cfg K) (reverse : Bool) (kind : Kind) (k : Nat) {r : Run K} (h : r.failed ≠ none) :
    r.interval cfg reverse kind k = r := by
  unfold Run.interval
  rw [if_pos]
  cases hf : r.failed with
  | none => exact absurd hf h
  | some e => rfl

theorem save_failed' (kind : Kind) (stop : Nat) {r : Run K} (h : r.failed ≠ none) : r.save kind stop = r := by
  unfold Run.save
  rw [if_pos]
  cases hf : r.failed with
  | none => exact absurd hf h
  | some e => rfl

/-- The run has failed, or has not looked at the file yet. -/
def TornAhead (k : Nat) (r : Run K) : Prop := r.failed ≠ none ∨ r.disk.temp (k + 1) = some .torn

theorem compute_torn (cfg : Cfg K) (reverse : Bool) (kind : Kind) {k k' : Nat} {r : Run K} (h : TornAhead k r)
    (hk : kind = .expm → k' ≠ k) : TornAhead k (r.compute cfg reverse kind k') := by
  unfold Run.compute
  split
  · exact .inl (by simp)
  · dsimp only
    split
    · next hc =>
      rcases h with h | h
      · exact .inl h
      · right
        have : k + 1 ≠ k' + 1 := fun he => hk hc.1 (by omega)
        simp only [Run.emit, Disk.write, if_neg this]
        exact h
    · exact h

theorem interval_torn (cfg : Cfg K) (reverse : Bool) (kind : Kind) {k : Nat} (k' : Nat) {r : Run K}
    (hs : cfg.saveIntermediate = true) (h : TornAhead k r) :
    TornAhead k (r.interval cfg reverse kind k') ∧
      (kind = .expm → k' = k → (r.interval cfg reverse kind k').failed ≠ none) := by
  by_cases hf : r.failed = none
  · have ht := h.resolve_left (fun hc => hc hf)
    have e : r.failed.isSome = false := by rw [hf]; rfl
    unfold Run.interval
    simp only [e, Bool.false_eq_true, if_false, hs, and_true]
    by_cases hkind : kind = .expm
    · rw [if_pos hkind]
      by_cases hk : k' = k
      · subst hk
        rw [ht]
        exact ⟨.inl (by simp), fun _ _ => by simp⟩
      · refine ⟨?_, fun _ hc => absurd hc hk⟩
        split
        · exact compute_torn cfg reverse kind h fun _ => hk
        · exact .inl (by simp)
        · split
          · exact .inr ht
          · exact .inl (by simp)
    · rw [if_neg hkind]
      exact ⟨compute_torn cfg reverse kind h fun hc => absurd hc hkind, fun hc => absurd hc hkind⟩
  · rw [interval_failed cfg reverse kind k' hf]
    exact ⟨.inl hf, fun _ _ => hf⟩

theorem intervals_torn (cfg : Cfg K) (reverse : Bool) {k : Nat} (hs : cfg.saveIntermediate = true) (k' : Nat) (kinds : List Kind) :
    ∀ r : Run K, TornAhead k r → TornAhead k (kinds.foldl (fun r kind => r.interval cfg reverse kind k') r) ∧
      ((Kind.expm ∈ kinds ∧ k' = k) ∨ r.failed ≠ none → (kinds.foldl (fun r kind => r.interval cfg reverse kind k') r).failed ≠ none) := by
  induction kinds with
  | nil => exact fun r h => ⟨h, fun hc => hc.elim (fun hc => (nomatch hc.1)) id⟩
  | cons kind kinds ih =>
    intro r h
    obtain ⟨h1, h2⟩ := interval_torn cfg reverse kind k' hs h
    obtain ⟨h3, h4⟩ := ih _ h1
    refine ⟨h3, ?_⟩
    rintro (⟨hm, hk⟩ | hf)
    · rcases List.mem_cons.1 hm with hm | hm
      · exact h4 (.inr (h2 hm.symm hk))
      · exact h4 (.inl ⟨hm, hk⟩)
    · refine h4 (.inr ?_)
      rw [interval_failed cfg reverse kind k' hf]
      exact hf

theorem range_torn (cfg : Cfg K) (reverse : Bool) {k : Nat} (hs : cfg.saveIntermediate = true) {kinds : List Kind}
    (hk : Kind.expm ∈ kinds) (ks : List Nat) :
    ∀ r : Run K, TornAhead k r →
      TornAhead k (ks.foldl (fun r k => kinds.foldl (fun r kind => r.interval cfg reverse kind k) r) r) ∧
      (k ∈ ks ∨ r.failed ≠ none →
        (ks.foldl (fun r k => kinds.foldl (fun r kind => r.interval cfg reverse kind k) r) r).failed ≠ none) := by
  induction ks with
  | nil => exact fun r h => ⟨h, fun hc => hc.elim (fun hc => (nomatch hc)) id⟩
  | cons k' ks ih =>
    intro r h
    obtain ⟨h1, h2⟩ := intervals_torn cfg reverse hs k' kinds r h
    obtain ⟨h3, h4⟩ := ih _ h1
    refine ⟨h3, ?_⟩
    rintro (hm | hf)
    · rcases List.mem_cons.1 hm with hm | hm
      · exact h4 (.inr (h2 (.inl ⟨hk, hm.symm⟩)))
      · exact h4 (.inl hm)
    · exact h4 (.inr (h2 (.inr hf)))

theorem saves_torn {k : Nat} (stop : Nat) (kinds : List Kind) : ∀ r : Run K, TornAhead k r →
    TornAhead k (kinds.foldl (fun r kind => r.save kind stop) r) ∧
      (r.failed ≠ none → (kinds.foldl (fun r kind => r.save kind stop) r).failed ≠ none) := by
  induction kinds with
  | nil => exact fun r h => ⟨h, id⟩
  | cons kind kinds ih =>
    intro r h
    have h1 : TornAhead k (r.save kind stop) := by
      unfold Run.save
      split
      · exact h
      · split
        · exact h
        · exact h
    obtain ⟨h3, h4⟩ := ih _ h1
    refine ⟨h3, fun hf => h4 ?_⟩
    rw [save_failed' kind stop hf]
    exact hf

theorem loop_torn (cfg : Cfg K) (reverse : Bool) {k : Nat} (hs : cfg.saveIntermediate = true) {kinds : List Kind}
    (hk : Kind.expm ∈ kinds) (stops : List Nat) :
    ∀ (from_ : Nat) (r : Run K), TornAhead k r → k ∈ passed reverse from_ stops ∨ r.failed ≠ none →
      (Run.loop cfg reverse kinds from_ stops r).failed ≠ none := by
  induction stops with
  | nil => exact fun from_ r _ hc => hc.elim (fun hc => (nomatch hc)) id
  | cons stop stops ih =>
    intro from_ r h hc
    obtain ⟨h1, h2⟩ := range_torn cfg reverse hs hk (kRange reverse from_ stop) r h
    obtain ⟨h3, h4⟩ := saves_torn stop kinds _ h1
    refine ih stop _ h3 ?_
    rcases hc with hc | hc
    · rcases List.mem_append.1 hc with hc | hc
      · exact .inr (h4 (h2 (.inl hc)))
      · exact .inl hc
    · exact .inr (h4 (h2 (.inr hc)))

/-- **C50**, runs that save temporary files: no wrong integral is computed from a temporary file whose
end is missing.  A run that needs the file ends with an exception. -/
theorem C50_torn_temp {cfg : Cfg K} (hu : cfg.use .expm = true) (hi : cfg.saveIntermediate = true)
    {start : Nat} (hst : cfg.allInds[cfg.indStart]? = some start) {d : Disk K} (hd : ∀ kind stop, d.integral kind stop = none)
    {reverse : Bool} {stops : List Nat} (hs : intStops cfg.allInds cfg.indStart cfg.onlyOne reverse = .ok stops)
    {k : Nat} (hk : k ∈ passed reverse start stops) (htorn : d.temp (k + 1) = some .torn) :
    (worker cfg reverse d).failed ≠ none := by
  have hex : ∀ kind, existing d kind stops = 0 := by
    intro kind
    unfold existing
    cases stops with
    | nil => rfl
    | cons s r =>
      rw [List.takeWhile_cons_of_neg (by rw [hd]; simp)]
      rfl
  have hr : ∀ kind, resume cfg d reverse start ⟨fun _ => .init, start, stops, fun _ => false, fun _ => 0⟩ kind =
      .ok ⟨fun _ => .init, start, stops, fun _ => false, fun _ => 0⟩ := by
    intro kind
    unfold resume
    dsimp only
    rw [hex]
    simp
  unfold worker
  rw [hst]
  dsimp only
  rw [hs]
  dsimp only
  rw [foldlM_two_ok (hr .expm) (hr .lin)]
  dsimp only
  rw [if_neg (by simp)]
  exact loop_torn cfg reverse hi (by simp [hu]) stops start _ (.inr htorn) (.inl hk)

/-! ## The grid -/

/-- **C50**, grid.  The grid points are equally spaced from 0 on, all intervals before a grid point
are among the saved ones, and fewer than a step of saved intervals are left after the last one. -/
theorem C50_grid {num : Nat} {intLength : Option Nat} {numPoints : Nat} {inds : List Nat}
    (h : gridInds num intLength numPoints = some inds) :
    inds.Pairwise (· < ·) ∧ inds.head? = some 0 ∧ (∀ a ∈ inds, ∀ k < a, k < num) ∧
      ∃ last, inds.getLast? = some last ∧ last ≤ num ∧ num < last + intLength.getD (num / numPoints) := by
  unfold gridInds at h
  dsimp only at h
  split at h
  · cases h
  · next hlen =>
    generalize intLength.getD (num / numPoints) = len at hlen ⊢ h
    injection h with h
    subst h
    have hpos : 0 < len := by omega
    refine ⟨?_, ?_, ?_, num / len * len, ?_, Nat.div_mul_le_self _ _, ?_⟩
    · rw [List.pairwise_map]
      exact List.pairwise_lt_range.imp fun hab => Nat.mul_lt_mul_of_pos_right hab hpos
    · rw [List.range_succ_eq_map]; simp
    · intro a ha k hk
      obtain ⟨i, hi, rfl⟩ := List.mem_map.1 ha
      rw [List.mem_range] at hi
      have h1 : i * len ≤ num / len * len := Nat.mul_le_mul_right _ (by omega)
      have h2 := Nat.div_mul_le_self num len
      omega
    · rw [List.range_succ, List.map_append]; simp
    · have := Nat.lt_div_mul_add (a := num) hpos
      omega

/-- **C50**, grid.  With more grid points than saved intervals there is no grid: the script stops with an
exception. -/
theorem C50_grid_too_fine_violated {num numPoints : Nat} (h : num < numPoints) : gridInds num none numPoints = none := by
  unfold gridInds
  simp [Nat.div_eq_of_lt h]

/-- **C50**, grid.  The last saved intervals are never integrated if the step does not divide the number of
intervals: with three points for eleven intervals, two of them are left out. -/
theorem C50_grid_end_violated : gridInds 11 none 3 = some [0, 3, 6, 9] := by decide +kernel

/-! ## Example -/

noncomputable def exT1 : Mat ℝ := fun i j => if i = j then 3/4 else 1/4
noncomputable def exT2 : Mat ℝ := fun i j => if i = 0 then 1/2 else if j = 1 then 1 else 0

/-- An interval of two inter-event matrices, one of one matrix, and an empty one. -/
noncomputable def exSlices (k : Nat) : Option (Slice ℝ) :=
  if k = 0 then some ⟨[(exT1, 1), (exT2, 2)], 3, mul 2 exT1 exT2, mul 2 exT2 exT1⟩
  else if k = 1 then some ⟨[(exT2, 1)], 1, exT2, exT2⟩
  else if k = 2 then some ⟨[], 0, eye, eye⟩
  else none

/-- Grid points 0, 1 and 3. -/
noncomputable def exCfg (lin : Bool) : Cfg ℝ where
  n := 2
  mkl := true
  sqrt := Real.sqrt
  use := fun k => match k with
    | .expm => true
    | .lin => lin
  saveIntermediate := false
  onlyOne := false
  allInds := [0, 1, 3]
  indStart := 0
  slices := fun _ => exSlices

theorem ex_stoch1 : Stoch 2 exT1 := by
  intro i hi
  have : i = 0 ∨ i = 1 := by omega
  refine ⟨fun j _ => by unfold exT1; split <;> norm_num, ?_⟩
  rcases this with rfl | rfl <;> simp [Finset.sum_range_succ, exT1] <;> norm_num

theorem ex_stoch2 : Stoch 2 exT2 := by
  intro i hi
  have : i = 0 ∨ i = 1 := by omega
  refine ⟨fun j _ => by unfold exT2; split; norm_num; split <;> norm_num, ?_⟩
  rcases this with rfl | rfl <;> simp [Finset.sum_range_succ, exT2] <;> norm_num

theorem ex_usable (lin : Bool) : Usable (exCfg lin) 0 where
  grid := by simp [exCfg]
  start := rfl
  files := by
    intro kind _ a ha k hk
    have hk3 : k < 3 := by
      simp only [exCfg, List.mem_cons, List.not_mem_nil, or_false] at ha
      omega
    have : k = 0 ∨ k = 1 ∨ k = 2 := by omega
    rcases this with rfl | rfl | rfl
    · refine ⟨_, rfl, ?_, ?_, ?_⟩
      · intro e he
        simp only [List.mem_cons, List.not_mem_nil, or_false] at he
        rcases he with rfl | rfl
        · exact ex_stoch1
        · exact ex_stoch2
      · exact mul_congr (EqOn.refl _ _) (mul_eye _).symm
      · exact mul_congr (EqOn.refl _ _) (mul_eye _).symm
    · refine ⟨_, rfl, ?_, ?_, ?_⟩
      · intro e he
        simp only [List.mem_cons, List.not_mem_nil, or_false] at he
        rcases he with rfl
        exact ex_stoch2
      · exact (mul_eye _).symm
      · exact (mul_eye _).symm
    · exact ⟨_, rfl, by simp, EqOn.refl _ _, EqOn.refl _ _⟩
  sqrt := fun x hx => Real.mul_self_sqrt hx

theorem addStep_time (cfg : Cfg K) (l : List (Mat K × K)) : ∀ s : Integ K, (l.foldl (addStep cfg) s).time = s.time := by
  induction l with
  | nil => intro s; rfl
  | cons e l ih => intro s; rw [List.foldl_cons, ih]; rfl

theorem addSlice_time (cfg : Cfg K) (reverse : Bool) (s : Integ K) (sl : Slice K) :
    (addSlice cfg reverse s sl).time = s.time + sl.span := by
  unfold addSlice
  dsimp only
  rw [addStep_time]

theorem setKind_expm {V : Type} (f : Kind → V) (v : V) : setKind f .expm v .expm = v := rfl
theorem setKind_lin {V : Type} (f : Kind → V) (v : V) : setKind f .lin v .lin = v := rfl
theorem setKind_expm_lin {V : Type} (f : Kind → V) (v : V) : setKind f .expm v .lin = f .lin := rfl
theorem setKind_lin_expm {V : Type} (f : Kind → V) (v : V) : setKind f .lin v .expm = f .expm := rfl

theorem save_failed (r : Run K) (kind : Kind) (stop : Nat) : (r.save kind stop).failed = r.failed := by
  unfold Run.save; split; rfl; split <;> rfl

theorem save_st (r : Run K) (kind : Kind) (stop : Nat) : (r.save kind stop).st = r.st := by
  unfold Run.save; split; rfl; split <;> rfl

theorem save_log (r : Run K) (kind : Kind) (stop : Nat) (hf : r.failed = none) (ht : 0 < (r.st kind).time) :
    (r.save kind stop).log = r.log ++
      [.integral kind stop ⟨fun i j => if i ≤ j then (r.st kind).itpt i j else 0, (r.st kind).time⟩] := by
  unfold Run.save
  rw [hf, if_neg (by simp), if_pos ht]
  rfl

theorem interval_ok (cfg : Cfg K) (hc : cfg.saveIntermediate = false) (reverse : Bool) (kind : Kind) (k : Nat) (r : Run K)
    (hf : r.failed = none) {sl : Slice K} (hs : cfg.slices kind k = some sl) :
    (r.interval cfg reverse kind k) = { r with st := setKind r.st kind (addSlice cfg reverse (r.st kind) sl) } := by
  unfold Run.interval Run.compute
  simp [hf, hs, hc]

theorem ex_log (lin : Bool) : (worker (exCfg lin) false .empty).log.map (fun w => match w with
    | .integral kind stop v => some (kind, stop, v.time)
    | .temp _ _ => none) =
    if lin then [some (.expm, 1, 3), some (.lin, 1, 3), some (.expm, 3, 4), some (.lin, 3, 4)]
    else [some (.expm, 1, 3), some (.expm, 3, 4)] := by
  have e0 : (exCfg lin).slices = fun _ => exSlices := rfl
  have e1 : (exCfg lin).saveIntermediate = false := rfl
  have h4 : (0 : ℝ) < 3 + 1 := by norm_num
  cases lin
  · have : worker (exCfg false) false .empty =
        Run.loop (exCfg false) false [.expm] 0 [1, 3] ⟨fun _ => .init, .empty, [], none⟩ := by
      simp [worker, exCfg, intStops, resume, existing, Disk.empty, Integ.init, Bind.bind, Except.bind, Pure.pure, Except.pure]
    rw [this]
    simp [h4, Run.loop, Run.upTo, kRange, List.range', save_failed, save_st, save_log, interval_ok, e0, e1, exSlices,
      setKind_expm, addSlice_time, Integ.init]
    norm_num
  · have : worker (exCfg true) false .empty =
        Run.loop (exCfg true) false [.expm, .lin] 0 [1, 3] ⟨fun _ => .init, .empty, [], none⟩ := by
      simp [worker, exCfg, intStops, resume, existing, Disk.empty, Integ.init, Bind.bind, Except.bind, Pure.pure, Except.pure]
    rw [this]
    simp [h4, Run.loop, Run.upTo, kRange, List.range', save_failed, save_st, save_log, interval_ok, e0, e1, exSlices,
      setKind_expm, setKind_lin, setKind_expm_lin, setKind_lin_expm, addSlice_time, Integ.init]
    norm_num

theorem ex_first (lin : Bool) : ∃ v rest, (worker (exCfg lin) false .empty).log = .integral .expm 1 v :: rest := by
  have h := ex_log lin
  cases hl : (worker (exCfg lin) false .empty).log with
  | nil => rw [hl] at h; cases lin <;> simp at h
  | cons w rest =>
    rw [hl] at h
    cases w with
    | temp key v => cases lin <;> simp at h
    | integral kind stop v =>
      have : kind = .expm ∧ stop = 1 := by
        cases lin <;> simp at h <;> exact ⟨h.1.1, h.1.2.1⟩
      rw [this.1, this.2]
      exact ⟨_, _, rfl⟩

theorem ex_stops (lin : Bool) : intStops (exCfg lin).allInds (exCfg lin).indStart (exCfg lin).onlyOne false = .ok [1, 3] := rfl

/-- The run that stopped after its first file is finished by the next one. -/
example : ∃ d : Disk ℝ, Crashes (exCfg false) d ∧ (d.integral .expm 1).isSome ∧ d.integral .expm 3 = none ∧
    (worker (exCfg false) false d).failed = none ∧
    ∀ stop ∈ [1, 3], Complete (exCfg false) false .expm 0 stop ((worker (exCfg false) false d).disk.integral .expm stop) := by
  obtain ⟨v, rest, h⟩ := ex_first false
  refine ⟨[Write.integral .expm 1 v].foldl Disk.write .empty, ?_, rfl, rfl, ?_⟩
  · exact .run false _ .start (by simp) (by rw [h]; exact ⟨rest, rfl⟩)
  · have hc : Crashes (exCfg false) ([Write.integral .expm 1 v].foldl Disk.write .empty) :=
      .run false _ .start (by simp) (by rw [h]; exact ⟨rest, rfl⟩)
    obtain ⟨h1, h2⟩ := C50_resumed_partial (ex_usable false) (by simp [exCfg]) hc (by simp) (ex_stops false)
    exact ⟨h1, h2 .expm rfl⟩

/-- The second of three intervals has a temporary file that cannot be read. -/
example : (worker { exCfg false with saveIntermediate := true } false
    ⟨fun _ _ => none, fun k => if k = 2 then some .torn else none⟩).failed ≠ none :=
  C50_torn_temp (cfg := { exCfg false with saveIntermediate := true }) rfl rfl (start := 0) rfl (fun _ _ => rfl)
    (stops := [1, 3]) rfl (k := 1) (by decide) rfl

example : (worker (exCfg true) false .empty).failed = none :=
  (C50_first_run (ex_usable true) (by simp) (ex_stops true)).1

/-- **C50**, both kinds: a run of proper inputs that stops after its first file is never finished, however often the script is started again. -/
theorem C50_both_kinds_reached_violated : ∃ d : Disk ℝ, Usable (exCfg true) 0 ∧ Crashes (exCfg true) d ∧
    ∀ m, ((fun d => (worker (exCfg true) false d).disk)^[m] d).integral .expm 3 = none := by
  obtain ⟨v, rest, h⟩ := ex_first true
  refine ⟨[Write.integral .expm 1 v].foldl Disk.write .empty, ex_usable true, ?_, fun m => ?_⟩
  · exact .run false _ .start (by simp) (by rw [h]; exact ⟨rest, rfl⟩)
  · rw [(C50_both_kinds_violated (cfg := exCfg true) ⟨rfl, rfl⟩ (ex_stops true)
      (by change (1 : Nat) ≠ 0; decide) (by change (1 : Nat) ≠ 2; decide) m).2.2]
    rfl

/-- **C50**, torn file: a run that is stopped while it writes its first file is never finished, however often the script is started again. -/
theorem C50_torn_reached_violated : ∃ (w : Write ℝ) (rest : List (Write ℝ)), Usable (exCfg false) 0 ∧
    (worker (exCfg false) false .empty).log = w :: rest ∧
    ∀ m, ((fun d => (worker (exCfg false) false d).disk)^[m] (Disk.empty.tear w)).integral .expm 3 = none := by
  obtain ⟨v, rest, h⟩ := ex_first false
  refine ⟨_, rest, ex_usable false, h, fun m => ?_⟩
  rw [(C50_torn_violated (cfg := exCfg false) (kind := .expm) rfl (by simp [exCfg]) (ex_stops false) (m := 0) (stop := 1)
    (by simp) rfl (by simp) rfl (by intro s hs; simp at hs; subst hs; rfl) m).2.2]
  rfl

end Verif.Scripts
