import Verif.LapMain.Names
import Verif.LapMain.Alone
import Verif.Scripts.Slices

/-!
# The directory of `run_laplacians_transmats`: properties C144 and C145
-/

set_option linter.dupNamespace false

namespace Verif.LapMain

open Verif.CovMain (Text padded)
open Verif.Scripts (Kind File fullBatch workList)
open Verif.Laps Verif.Glob

variable {τ V : Type}

/-! ## What holds after every step -/

/-- The processes have done nothing to each other. -/
structure Inv (s : Site) (prog : Nat → Prog (Label × What) V) (fs0 : Fs V) (p : Pool V) : Prop where
  tidy : Tidy s p.files
  rest : ∀ f, (∀ i q, f ≠ s.file i q) → p.files.get f = fs0.get f
  idle : ∀ i, p.proc i = none → s.view p.files i = s.view fs0 i
  busy : ∀ i x, p.proc i = some x → ∃ r : Run Label V, r.disk = s.view p.files i ∧
    r.disk = r.log.foldl write (s.view fs0 i) ∧ x.alone r = (prog i).alone ⟨s.view fs0 i, []⟩

theorem view_put (s : Site) (fs : Fs V) (i j : Nat) (q : Label × What) (v : V) :
    s.view ((s.file i q, .whole v) :: fs) j = if j = i then write (s.view fs i) ⟨q, v⟩ else s.view fs j := by
  funext r
  unfold Site.view
  rw [get_cons]
  by_cases h : j = i
  · subst h
    rw [if_pos rfl]
    unfold write
    by_cases h' : r = q
    · subst h'
      simp
    · rw [if_neg fun hh => h' (file_inj s hh).2]
      simp [h']
  · rw [if_neg h, if_neg fun hh => h (file_inj s hh).1]

theorem inv_start (s : Site) (prog : Nat → Prog (Label × What) V) {fs : Fs V} (h : Tidy s fs) :
    Inv s prog fs ⟨fs, fun _ => none⟩ :=
  ⟨h, fun _ _ => rfl, fun _ _ => rfl, fun _ _ hx => by cases hx⟩

theorem inv_step {s : Site} (hs : s.Plain) (prog : Nat → Prog (Label × What) V) {fs0 : Fs V} {p : Pool V} (h : Inv s prog fs0 p)
    (i : Nat) : Inv s prog fs0 (p.step s prog i) := by
  unfold Pool.step
  cases hp : p.proc i with
  | none =>
    refine ⟨h.tidy, h.rest, fun j hj => ?_, fun j x hx => ?_⟩
    · dsimp only at hj
      split at hj
      · cases hj
      · exact h.idle j hj
    · dsimp only at hx
      split at hx
      · rename_i hji
        subst hji
        cases hx
        exact ⟨⟨s.view fs0 j, []⟩, (h.idle j hp).symm, rfl, rfl⟩
      · exact h.busy j x hx
  | some y =>
    obtain ⟨r, hr1, hr2, hr3⟩ := h.busy i y hp
    cases y with
    | done => exact h
    | ask q next =>
      refine ⟨h.tidy, h.rest, fun j hj => ?_, fun j x hx => ?_⟩
      · dsimp only at hj
        split at hj
        · cases hj
        · exact h.idle j hj
      · dsimp only at hx
        split at hx
        · rename_i hji
          subst hji
          cases hx
          refine ⟨r, hr1, hr2, ?_⟩
          rw [← hr3, found_iff hs h.tidy, ← hr1]
          rfl
        · exact h.busy j x hx
    | put q v next =>
      refine ⟨?_, fun f hf => ?_, fun j hj => ?_, fun j x hx => ?_⟩
      · intro e he
        rcases List.mem_cons.1 he with rfl | he
        · exact .inr ⟨i, q, rfl⟩
        · exact h.tidy e he
      · rw [← h.rest f hf]
        show Fs.get ((s.file i q, .whole v) :: p.files) f = _
        rw [get_cons, if_neg (hf i q)]
      · dsimp only at hj
        split at hj
        · cases hj
        · rename_i hji
          show s.view ((s.file i q, .whole v) :: p.files) j = _
          rw [view_put, if_neg hji, h.idle j hj]
      · dsimp only at hx
        split at hx
        · rename_i hji
          subst hji
          cases hx
          refine ⟨r.put q v, ?_, ?_, ?_⟩
          · show _ = s.view ((s.file j q, .whole v) :: p.files) j
            rw [view_put, if_pos rfl, ← hr1]
            rfl
          · show write r.disk ⟨q, v⟩ = (r.log ++ [(⟨q, v⟩ : Write Label V)]).foldl write _
            rw [List.foldl_append, ← hr2]
            rfl
          · rw [← hr3]
            rfl
        · rename_i hji
          obtain ⟨r', a, b, c⟩ := h.busy j x hx
          refine ⟨r', ?_, b, c⟩
          show _ = s.view ((s.file i q, .whole v) :: p.files) j
          rw [view_put, if_neg hji, a]

theorem inv_run {s : Site} (hs : s.Plain) (prog : Nat → Prog (Label × What) V) {fs : Fs V} (h : Tidy s fs) (order : List Nat) :
    Inv s prog fs (Pool.run s prog fs order) := by
  have : ∀ (l : List Nat) (p : Pool V), Inv s prog fs p → Inv s prog fs (l.foldl (Pool.step s prog) p) := by
    intro l
    induction l with
    | nil => exact fun p hp => hp
    | cons i l ih => exact fun p hp => ih _ (inv_step hs prog hp i)
  exact this order _ (inv_start s prog h)

/-- What has been started. -/
theorem proc_run (s : Site) (prog : Nat → Prog (Label × What) V) (fs : Fs V) (order : List Nat) (i : Nat) (hi : i ∉ order) :
    (Pool.run s prog fs order).proc i = none := by
  have : ∀ (l : List Nat) (p : Pool V), i ∉ l → p.proc i = none → (l.foldl (Pool.step s prog) p).proc i = none := by
    intro l
    induction l with
    | nil => exact fun p _ hp => hp
    | cons j l ih =>
      intro p hj hp
      simp only [List.mem_cons, not_or] at hj
      refine ih _ hj.2 ?_
      unfold Pool.step
      cases hq : p.proc j with
      | none => dsimp only; rw [if_neg hj.1]; exact hp
      | some y =>
        cases y with
        | done => exact hp
        | ask q next => dsimp only; rw [if_neg hj.1]; exact hp
        | put q v next => dsimp only; rw [if_neg hj.1]; exact hp
  exact this order _ hi rfl

variable {s : Site} {opt : Opt} {calc' : Nat → Calc τ Label V} {taus : List τ}

theorem history_inv (hs : s.Plain) {fs : Fs V} (h : History s (fun i => workerP opt (calc' i) taus) fs) :
    Tidy s fs ∧ ∀ i, Stopped opt (calc' i) taus (s.view fs i) := by
  induction h with
  | start fs hf =>
    refine ⟨fun e he => .inl (hf e he), fun i => ?_⟩
    have : s.view fs i = empty := by
      funext q
      show fs.get (s.file i q) = none
      rw [← Option.not_isSome_iff_eq_none, get_isSome]
      rintro ⟨e, he, h⟩
      exact file_not_foreign s i q (h ▸ hf e he)
    rw [this]
    exact .start
  | @session fs order hfs ih =>
    have hI := inv_run hs (fun i => workerP opt (calc' i) taus) ih.1 order
    refine ⟨hI.tidy, fun i => ?_⟩
    cases hp : (Pool.run s (fun i => workerP opt (calc' i) taus) fs order).proc i with
    | none =>
      rw [hI.idle i hp]
      exact ih.2 i
    | some x =>
      obtain ⟨r, h1, h2, h3⟩ := hI.busy i x hp
      rw [← h1, h2]
      refine .run r.log (ih.2 i) ?_
      rw [workerP_alone] at h3
      rw [← h3]
      exact alone_log x r

/-- The processes that have come to their end have left what each of them does alone. -/
theorem finished_view (hs : s.Plain) {fs : Fs V} (ht : Tidy s fs) {order jobs : List Nat}
    (hf : Finished (Pool.run s (fun i => workerP opt (calc' i) taus) fs order) jobs) {i : Nat} (hi : i ∈ jobs) :
    s.view (Pool.run s (fun i => workerP opt (calc' i) taus) fs order).files i = (worker opt (calc' i) taus (s.view fs i)).disk := by
  have hI := inv_run hs (fun i => workerP opt (calc' i) taus) ht order
  have h := hf i hi
  cases hp : (Pool.run s (fun i => workerP opt (calc' i) taus) fs order).proc i with
  | none => rw [hp] at h; exact h.elim
  | some x =>
    rw [hp] at h
    cases x with
    | ask q next => exact h.elim
    | put q v next => exact h.elim
    | done =>
      obtain ⟨r, h1, -, h3⟩ := hI.busy i _ hp
      rw [workerP_alone] at h3
      rw [← h1, ← h3]
      rfl

/-- **C145**: after any number of sessions that were stopped, with the steps of the processes in any
order, a session that comes to its end has for every slice that it was given all files that were asked
for, whole, with the content of the slice (as C80 says of a slice alone). -/
theorem C145_complete (hs : s.Plain) {fs : Fs V} (h : History s (fun i => workerP opt (calc' i) taus) fs) {order jobs : List Nat}
    (hf : Finished (Pool.run s (fun i => workerP opt (calc' i) taus) fs order) jobs) {i : Nat} (hi : i ∈ jobs)
    (hd : ∀ a ∈ taus, ∀ b ∈ taus, (calc' i).label a = (calc' i).label b → a = b) {tau : τ} (ht : tau ∈ taus)
    (hc : ∀ k, opt.use k = true → ((calc' i).inter k tau).isSome) {w : What} (hw : Requested opt w) :
    ∃ x, (Pool.run s (fun i => workerP opt (calc' i) taus) fs order).files.get (s.file i ((calc' i).label tau, w)) = some (.whole x) ∧
      (Content (calc' i) false tau w x ∨ (opt.inPlace = true ∧ opt.saveInter = true ∧ Content (calc' i) true tau w x)) := by
  obtain ⟨h1, h2⟩ := history_inv hs h
  obtain ⟨x, hx, hC⟩ := C80_resumed_partial opt (calc' i) taus hd _ (h2 i) tau ht hc w hw
  refine ⟨x, ?_, hC⟩
  rw [← hx, ← finished_view hs h1 hf hi]
  rfl

/-- **C145**, other files.  Slices that were not given to a session, because they are skipped or belong
to another batch, and all files that are not of the network, are as before, at every moment. -/
theorem C145_others (hs : s.Plain) {fs : Fs V} (h : History s (fun i => workerP opt (calc' i) taus) fs) (order : List Nat)
    (f : Path) (hf : s.Foreign f ∨ ∃ i q, i ∉ order ∧ f = s.file i q) :
    (Pool.run s (fun i => workerP opt (calc' i) taus) fs order).files.get f = fs.get f := by
  have hI := inv_run hs (fun i => workerP opt (calc' i) taus) (history_inv hs h).1 order
  rcases hf with hf | ⟨i, q, hi, rfl⟩
  · exact hI.rest f fun i q hfq => file_not_foreign s i q (hfq ▸ hf)
  · exact congrFun (hI.idle i (proc_run s _ fs order i hi)) q

/-- **C145**, order.  Two sessions from the same files that treat the same slices and come to their
end leave the same files, whatever the order of their steps. -/
theorem C145_any_order (hs : s.Plain) {fs : Fs V} (h : History s (fun i => workerP opt (calc' i) taus) fs) {order order' jobs : List Nat}
    (hf : Finished (Pool.run s (fun i => workerP opt (calc' i) taus) fs order) jobs)
    (hf' : Finished (Pool.run s (fun i => workerP opt (calc' i) taus) fs order') jobs)
    (ho : ∀ i ∈ order, i ∈ jobs) (ho' : ∀ i ∈ order', i ∈ jobs) (f : Path) :
    (Pool.run s (fun i => workerP opt (calc' i) taus) fs order).files.get f =
      (Pool.run s (fun i => workerP opt (calc' i) taus) fs order').files.get f := by
  have ht := (history_inv hs h).1
  have hI := inv_run hs (fun i => workerP opt (calc' i) taus) ht order
  have hI' := inv_run hs (fun i => workerP opt (calc' i) taus) ht order'
  by_cases hq : ∃ i q, f = s.file i q
  · obtain ⟨i, q, rfl⟩ := hq
    by_cases hi : i ∈ jobs
    · exact congrFun ((finished_view hs ht hf hi).trans (finished_view hs ht hf' hi).symm) q
    · exact congrFun ((hI.idle i (proc_run s _ fs order i fun hh => hi (ho i hh))).trans
        (hI'.idle i (proc_run s _ fs order' i fun hh => hi (ho' i hh))).symm) q
  · push Not at hq
    rw [hI.rest f hq, hI'.rest f hq]

/-! ## The processes come to their end -/

/-- The largest number of steps. -/
def Prog.depth {Q : Type} : Prog Q V → Nat
  | .done => 0
  | .ask _ next => max (next true).depth (next false).depth + 1
  | .put _ _ next => next.depth + 1

/-- What is left to do. -/
def left (prog : Nat → Prog (Label × What) V) (p : Pool V) (i : Nat) : Nat :=
  match p.proc i with
  | none => (prog i).depth + 1
  | some x => x.depth

theorem left_step (s : Site) (prog : Nat → Prog (Label × What) V) (p : Pool V) (i j : Nat) :
    left prog (p.step s prog j) i ≤ if i = j then left prog p i - 1 else left prog p i := by
  by_cases h : i = j
  · subst h
    rw [if_pos rfl]
    unfold Pool.step left
    cases hp : p.proc i with
    | none => simp
    | some x =>
      cases x with
      | done => simp [hp, Prog.depth]
      | ask q next =>
        simp only [if_true, Prog.depth]
        cases s.found p.files i q <;> omega
      | put q v next => simp [Prog.depth]
  · rw [if_neg h]
    unfold Pool.step left
    cases hp : p.proc j with
    | none => simp [h]
    | some x =>
      cases x with
      | done => simp
      | ask q next => simp [h]
      | put q v next => simp [h]

/-- **C145**, end.  Every process comes to its end after a number of its own steps, whatever the others
do. -/
theorem C145_finishes (s : Site) (opt : Opt) (calc' : Nat → Calc τ Label V) (taus : List τ) : ∃ N : Nat → Nat,
    ∀ (fs : Fs V) (order jobs : List Nat), (∀ i ∈ jobs, N i ≤ order.count i) →
      Finished (Pool.run s (fun i => workerP opt (calc' i) taus) fs order) jobs := by
  refine ⟨fun i => (workerP opt (calc' i) taus).depth + 1, fun fs order jobs hN i hi => ?_⟩
  set prog : Nat → Prog (Label × What) V := fun i => workerP opt (calc' i) taus with hprog
  have key : ∀ (l : List Nat) (p : Pool V), left prog (l.foldl (Pool.step s prog) p) i ≤ left prog p i - l.count i := by
    intro l
    induction l with
    | nil => intro p; simp
    | cons j l ih =>
      intro p
      refine (ih _).trans ?_
      have := left_step s prog p i j
      rw [List.count_cons]
      by_cases h : i = j
      · subst h
        simp only [if_true, beq_self_eq_true] at this ⊢
        omega
      · have h' : ¬ (j == i) = true := by simp [Ne.symm h]
        rw [if_neg h] at this
        rw [if_neg h']
        omega
  have h0 := key order ⟨fs, fun _ => none⟩
  have hcount : (workerP opt (calc' i) taus).depth + 1 ≤ order.count i := hN i hi
  have hz : left prog (Pool.run s prog fs order) i = 0 := by
    have : left prog (⟨fs, fun _ => none⟩ : Pool V) i = (workerP opt (calc' i) taus).depth + 1 := rfl
    rw [this] at h0
    exact Nat.eq_zero_of_le_zero (h0.trans (by omega))
  unfold left at hz
  cases hp : (Pool.run s prog fs order).proc i with
  | none => rw [hp] at hz; simp at hz
  | some x =>
    rw [hp] at hz
    cases x with
    | done => trivial
    | ask q next => simp [Prog.depth] at hz
    | put q v next => simp [Prog.depth] at hz

/-! ## Machines -/

theorem fullBatch_fst {K : Type} [Field K] (bounds : List K) : (fullBatch bounds).map (·.1) = List.range (bounds.length - 1) := by
  unfold fullBatch
  rw [List.map_map]
  have : (Prod.fst ∘ fun e : (K × K) × ℕ => (e.2, e.1)) = Prod.snd := rfl
  rw [this, List.zipIdx_map_snd, List.range_eq_range']
  congr 1
  simp

/-- **C145**, machines.  The slices that the machines are given, one machine after the other, are all
slices that are not skipped, each once. -/
theorem C145_batches {K : Type} [Field K] [LinearOrder K] [IsStrictOrderedRing K] (bounds : List K) {total : Nat} (ht : 0 < total)
    (skip : List Nat) : (List.range total).flatMap (machineJobs bounds total skip) =
      (List.range (bounds.length - 1)).filter fun i => decide (i ∉ skip) := by
  obtain ⟨works, h1, h2⟩ := Verif.Scripts.C49_work (fullBatch bounds) ht skip
  have h3 : (List.range total).map (machineJobs bounds total skip) = works.map fun l => l.map (·.1) := by
    have : (List.range total).map (machineJobs bounds total skip) =
        ((List.range total).map fun b => workList (fullBatch bounds) total b skip).map fun o => (o.getD []).map (·.1) := by
      rw [List.map_map]
      rfl
    rw [this, h1, List.map_map]
    rfl
  rw [List.flatMap_def, h3, ← List.map_flatten, h2, ← fullBatch_fst, List.filter_map]
  rfl

/-! ## Names that are patterns -/

/-- With these answers nothing is written. -/
def Prog.quiet {Q : Type} (ans : Q → Bool) : Prog Q V → Prop
  | .done => True
  | .ask q next => (next (ans q)).quiet ans
  | .put _ _ _ => False

theorem both_quiet {L : Type} (ans : L × What → Bool) (a b : L × What) (next : Bool → Prog (L × What) V) :
    (both a b next).quiet ans ↔ (next (ans a && ans b)).quiet ans := by
  unfold both
  cases h : ans a <;> simp [Prog.quiet, h]

theorem checkP_quiet {L : Type} (ans : L × What → Bool) (c : Calc τ L V) (taus : List τ)
    (h : ∀ tau ∈ taus, ∀ k rev, ans (c.label tau, .slice k rev) = true) (next : Flags → Prog (L × What) V)
    (hn : ∀ f : Flags, f.lin = true → f.expm = true → (next f).quiet ans) : (checkP c taus next).quiet ans := by
  induction taus generalizing next with
  | nil => exact hn _ rfl rfl
  | cons t l ih =>
    rw [checkP, both_quiet]
    simp only [Prog.quiet]
    rw [both_quiet]
    simp only [Prog.quiet]
    refine ih (fun tau ht => h tau (by simp [ht])) _ fun f h1 h2 => hn _ ?_ ?_
    · simp [h t (by simp), h1]
    · simp [h t (by simp), h2]

theorem pool_quiet (s : Site) (prog : Nat → Prog (Label × What) V) (fs : Fs V) (order : List Nat)
    (h : ∀ i ∈ order, (prog i).quiet (s.found fs i)) : (Pool.run s prog fs order).files = fs := by
  have : ∀ (l : List Nat) (p : Pool V), (∀ i ∈ l, (prog i).quiet (s.found fs i)) → p.files = fs →
      (∀ i x, p.proc i = some x → x.quiet (s.found fs i)) → (l.foldl (Pool.step s prog) p).files = fs := by
    intro l
    induction l with
    | nil => exact fun p _ hp _ => hp
    | cons j l ih =>
      intro p hl hp hx
      have hset : ∀ y : Prog (Label × What) V, y.quiet (s.found fs j) → ∀ i x,
          (if i = j then some y else p.proc i) = some x → x.quiet (s.found fs i) := by
        intro y hy i x hix
        split at hix
        · rename_i hij
          subst hij
          cases hix
          exact hy
        · exact hx i x hix
      have hl' : ∀ i ∈ l, (prog i).quiet (s.found fs i) := fun i hi => hl i (by simp [hi])
      rw [List.foldl_cons]
      unfold Pool.step
      cases hq : p.proc j with
      | none => exact ih _ hl' hp (hset _ (hl j (by simp)))
      | some y =>
        have hy := hx j y hq
        cases y with
        | done => exact ih _ hl' hp hx
        | ask q next =>
          refine ih _ hl' hp (hset _ ?_)
          rw [hp]
          exact hy
        | put q v next => exact hy.elim
  exact this order _ h rfl fun i x hx => by cases hx

/-- **C144, violated for names with brackets**, other networks.  Once the products of a network `run1`
are in the directory, nothing is computed for a network `run[12]`: no file is written, in any order of
steps, whatever the options. -/
theorem C144_skipped_violated {dir : List Text} (hd : ∀ p ∈ dir, Ordinary p) {u t v : Text} (hu : Ordinary u) (ht : Choice t)
    (hv : Ordinary v) (hdot : u.head? ≠ some '.') (hne : u ≠ []) {d : Char} (hdt : d ∈ t) (ext ext' : What → Text) (fs : Fs V)
    (order : List Nat) (hfs : ∀ i ∈ order, ∀ tau ∈ taus, ∀ k rev,
      (fs.get (Site.file ⟨dir, u ++ d :: v, ext'⟩ i ((calc' i).label tau, .slice k rev))).isSome) :
    (Pool.run ⟨dir, u ++ '[' :: (t ++ ']' :: v), ext⟩ (fun i => workerP opt (calc' i) taus) fs order).files = fs := by
  refine pool_quiet _ _ _ _ fun i hi => ?_
  refine checkP_quiet _ _ _ (fun tau htau k rev => ?_) _ fun f h1 h2 => ?_
  · obtain ⟨e, he, h⟩ := (get_isSome _ _).1 (hfs i hi tau htau k rev)
    unfold Site.found
    rw [List.any_eq_true]
    refine ⟨e, he, ?_⟩
    rw [h, stem_eq]
    have e1 : (u ++ '[' :: (t ++ ']' :: v)) ++ tail i ((calc' i).label tau, .slice k rev) =
        u ++ '[' :: (t ++ ']' :: (v ++ tail i ((calc' i).label tau, .slice k rev))) := by simp
    show pathFits (dir ++ [(u ++ '[' :: (t ++ ']' :: v)) ++ tail i ((calc' i).label tau, .slice k rev) ++ ['*']]) _ = true
    rw [e1, C144_brackets hd hu ht (Ordinary.append hv (tail_ordinary _ _)) hdot hne]
    refine ⟨d, hdt, ext' (.slice k rev), ?_⟩
    unfold Site.file
    rw [stem_eq]
    simp
  · rw [if_pos (by simp [h1, h2])]
    trivial

/-- What is written when nothing is ever found. -/
def Prog.blind {Q : Type} : Prog Q V → List (Q × V)
  | .done => []
  | .ask _ next => (next false).blind
  | .put q v next => (q, v) :: next.blind

theorem interP_blind {L : Type} (opt : Opt) (c : Calc τ L V) (tau : τ) (k : Kind) (fail : Prog (L × What) V)
    (next : Option V → Prog (L × What) V) (hc : opt.use k = true → (c.inter k tau).isSome) :
    ∃ o : Option V, (opt.use k = true → o.isSome) ∧
      (interP opt c tau k fail next).blind =
        (if opt.use k = true ∧ opt.saveInter = true then
          match c.inter k tau with
          | some v => [((c.label tau, What.inter k), c.round v)]
          | none => []
        else []) ++ (next o).blind := by
  unfold interP
  cases hu : opt.use k with
  | false => exact ⟨none, by simp, by simp⟩
  | true =>
    obtain ⟨v, hv⟩ := Option.isSome_iff_exists.1 (hc hu)
    cases hs : opt.saveInter with
    | false => exact ⟨some v, by simp, by simp [hv]⟩
    | true => exact ⟨some (if opt.inPlace then c.round v else v), by simp, by simp [hv, Prog.blind]⟩

theorem sliceP_blind {L : Type} (opt : Opt) (c : Calc τ L V) (tau : τ) (k : Kind) (rev : Bool) (o : Option V)
    (next : Prog (L × What) V) : ∃ l, (sliceP opt c tau k rev o next).blind = l ++ next.blind ∧
      (o.isSome → (∃ v, ((c.label tau, What.slice k rev), v) ∈ l) ∧ (opt.flow = true → ∃ v, ((c.label tau, What.flow k rev), v) ∈ l)) := by
  unfold sliceP
  cases o with
  | none => exact ⟨[], by simp, by simp⟩
  | some v =>
    cases hf : opt.flow with
    | false => exact ⟨[((c.label tau, What.slice k rev), c.slice k rev v)], by simp [Prog.blind], fun _ => ⟨⟨c.slice k rev v, by simp⟩, by simp⟩⟩
    | true =>
      exact ⟨[((c.label tau, What.flow k rev), c.flow k rev v), ((c.label tau, What.slice k rev), c.slice k rev v)],
        by simp [Prog.blind], fun _ => ⟨⟨c.slice k rev v, by simp⟩, fun _ => ⟨c.flow k rev v, by simp⟩⟩⟩

theorem tauP_blind {L : Type} (opt : Opt) (c : Calc τ L V) (tau : τ) (next : Prog (L × What) V)
    (hc : ∀ k, opt.use k = true → (c.inter k tau).isSome) : ∃ l, (tauP opt c tau next).blind = l ++ next.blind ∧
      ∀ w, Requested opt w → ∃ v, ((c.label tau, w), v) ∈ l := by
  unfold tauP
  obtain ⟨e, he, h1⟩ := interP_blind opt c tau .expm next (fun e => interP opt c tau .lin next fun l =>
    if opt.slices then
      sliceP opt c tau .expm false e (sliceP opt c tau .lin false l (sliceP opt c tau .expm true e (sliceP opt c tau .lin true l next)))
    else next) (hc .expm)
  obtain ⟨l, hl, h2⟩ := interP_blind opt c tau .lin next (fun l =>
    if opt.slices then
      sliceP opt c tau .expm false e (sliceP opt c tau .lin false l (sliceP opt c tau .expm true e (sliceP opt c tau .lin true l next)))
    else next) (hc .lin)
  obtain ⟨a4, b4, c4⟩ := sliceP_blind opt c tau .lin true l next
  obtain ⟨a3, b3, c3⟩ := sliceP_blind opt c tau .expm true e (sliceP opt c tau .lin true l next)
  obtain ⟨a2, b2, c2⟩ := sliceP_blind opt c tau .lin false l (sliceP opt c tau .expm true e (sliceP opt c tau .lin true l next))
  obtain ⟨a1, b1, c1⟩ := sliceP_blind opt c tau .expm false e (sliceP opt c tau .lin false l (sliceP opt c tau .expm true e (sliceP opt c tau .lin true l next)))
  have hinter : ∀ k, opt.use k = true ∧ opt.saveInter = true → ∃ v, ((c.label tau, What.inter k), v) ∈
      (if opt.use k = true ∧ opt.saveInter = true then
          match c.inter k tau with
          | some v => [((c.label tau, What.inter k), c.round v)]
          | none => []
        else []) := by
    intro k hk
    obtain ⟨v, hv⟩ := Option.isSome_iff_exists.1 (hc k hk.1)
    rw [if_pos hk, hv]
    exact ⟨c.round v, by simp⟩
  rw [h1, h2]
  cases hsl : opt.slices with
  | false =>
    refine ⟨_, by rw [← List.append_assoc]; rfl, ?_⟩
    rintro (k | ⟨k, rev⟩ | ⟨k, rev⟩) hw
    · obtain ⟨v, hv⟩ := hinter k hw
      refine ⟨v, ?_⟩
      cases k
      · exact List.mem_append_left _ hv
      · exact List.mem_append_right _ hv
    · have := hw.2; rw [hsl] at this; cases this
    · have := hw.2.1; rw [hsl] at this; cases this
  | true =>
    simp only [if_true]
    rw [b1, b2, b3, b4]
    refine ⟨_, by simp only [← List.append_assoc]; rfl, ?_⟩
    simp only [List.mem_append]
    rintro (k | ⟨k, rev⟩ | ⟨k, rev⟩) hw
    · obtain ⟨v, hv⟩ := hinter k hw
      refine ⟨v, ?_⟩
      cases k
      · exact .inl (.inl (.inl (.inl (.inl hv))))
      · exact .inl (.inl (.inl (.inl (.inr hv))))
    · cases k <;> cases rev
      · obtain ⟨v, hv⟩ := (c1 (he hw.1)).1; exact ⟨v, .inl (.inl (.inl (.inr hv)))⟩
      · obtain ⟨v, hv⟩ := (c3 (he hw.1)).1; exact ⟨v, .inl (.inr hv)⟩
      · obtain ⟨v, hv⟩ := (c2 (hl hw.1)).1; exact ⟨v, .inl (.inl (.inr hv))⟩
      · obtain ⟨v, hv⟩ := (c4 (hl hw.1)).1; exact ⟨v, .inr hv⟩
    · cases k <;> cases rev
      · obtain ⟨v, hv⟩ := (c1 (he hw.1)).2 hw.2.2; exact ⟨v, .inl (.inl (.inl (.inr hv)))⟩
      · obtain ⟨v, hv⟩ := (c3 (he hw.1)).2 hw.2.2; exact ⟨v, .inl (.inr hv)⟩
      · obtain ⟨v, hv⟩ := (c2 (hl hw.1)).2 hw.2.2; exact ⟨v, .inl (.inl (.inr hv))⟩
      · obtain ⟨v, hv⟩ := (c4 (hl hw.1)).2 hw.2.2; exact ⟨v, .inr hv⟩

theorem taus_blind {L : Type} (opt : Opt) (c : Calc τ L V) (l : List τ) (hc : ∀ tau ∈ l, ∀ k, opt.use k = true → (c.inter k tau).isSome)
    {tau : τ} (ht : tau ∈ l) {w : What} (hw : Requested opt w) : ∃ v, ((c.label tau, w), v) ∈ (l.foldr (tauP opt c) .done).blind := by
  induction l with
  | nil => cases ht
  | cons t l ih =>
    rw [List.foldr_cons]
    obtain ⟨a, h1, h2⟩ := tauP_blind opt c t (l.foldr (tauP opt c) .done) (hc t (by simp))
    rw [h1]
    rcases List.mem_cons.1 ht with rfl | ht
    · obtain ⟨v, hv⟩ := h2 w hw
      exact ⟨v, List.mem_append_left _ hv⟩
    · obtain ⟨v, hv⟩ := ih (fun x hx => hc x (by simp [hx])) ht
      exact ⟨v, List.mem_append_right _ hv⟩

theorem checkP_blind {L : Type} (c : Calc τ L V) (l : List τ) (next : Flags → Prog (L × What) V) (hl : l ≠ []) :
    (checkP c l next).blind = (next ⟨false, false, false, false⟩).blind := by
  induction l generalizing next with
  | nil => exact absurd rfl hl
  | cons t l ih =>
    rw [checkP]
    simp only [both, Prog.blind, Bool.false_eq_true, if_false, Bool.false_and]
    cases l with
    | nil => rfl
    | cons t' l => rw [ih _ (by simp)]

/-- Nothing is found, so a process writes what it writes blindly. -/
theorem pool_blind (s : Site) (prog : Nat → Prog (Label × What) V) (fs : Fs V) (order : List Nat)
    (hown : ∀ e ∈ fs, ∃ i q, e.1 = s.file i q) (hnone : ∀ j q i q', pathFits (s.dir ++ [s.stem i q' ++ ['*']]) (s.file j q) = false) :
    ∃ new, (Pool.run s prog fs order).files = new ++ fs ∧ ∀ i x, (Pool.run s prog fs order).proc i = some x →
      ∃ l, (prog i).blind = l ++ x.blind ∧ ∀ e ∈ l, (s.file i e.1, File.whole e.2) ∈ new := by
  have : ∀ (l : List Nat) (p : Pool V), (∀ e ∈ p.files, ∃ i q, e.1 = s.file i q) → (∃ new, p.files = new ++ fs ∧ ∀ i x, p.proc i = some x →
        ∃ l, (prog i).blind = l ++ x.blind ∧ ∀ e ∈ l, (s.file i e.1, File.whole e.2) ∈ new) →
      ∃ new, (l.foldl (Pool.step s prog) p).files = new ++ fs ∧ ∀ i x, (l.foldl (Pool.step s prog) p).proc i = some x →
        ∃ l, (prog i).blind = l ++ x.blind ∧ ∀ e ∈ l, (s.file i e.1, File.whole e.2) ∈ new := by
    intro l
    induction l with
    | nil => exact fun p _ h => h
    | cons j l ih =>
      rintro p hp ⟨new, h1, h2⟩
      have hset : ∀ (new' : List (Path × File V)) (y : Prog (Label × What) V), (∀ e ∈ new, e ∈ new') →
          (∃ l, (prog j).blind = l ++ y.blind ∧ ∀ e ∈ l, (s.file j e.1, File.whole e.2) ∈ new') → ∀ i x,
          (if i = j then some y else p.proc i) = some x →
            ∃ l, (prog i).blind = l ++ x.blind ∧ ∀ e ∈ l, (s.file i e.1, File.whole e.2) ∈ new' := by
        intro new' y hnew hy i x hix
        split at hix
        · rename_i hij
          subst hij
          cases hix
          exact hy
        · obtain ⟨l, h3, h4⟩ := h2 i x hix
          exact ⟨l, h3, fun e he => hnew _ (h4 e he)⟩
      rw [List.foldl_cons]
      unfold Pool.step
      cases hq : p.proc j with
      | none => exact ih _ hp ⟨new, h1, hset new _ (fun _ h => h) ⟨[], rfl, by simp⟩⟩
      | some y =>
        obtain ⟨l0, h3, h4⟩ := h2 j y hq
        cases y with
        | done => exact ih _ hp ⟨new, h1, h2⟩
        | ask q next =>
          refine ih _ hp ⟨new, h1, hset new _ (fun _ h => h) ⟨l0, ?_, h4⟩⟩
          have : s.found p.files j q = false := by
            unfold Site.found
            rw [Bool.eq_false_iff]
            intro h
            obtain ⟨e, he, h⟩ := List.any_eq_true.1 h
            obtain ⟨i, q', hiq⟩ := hp e he
            rw [hiq, hnone] at h
            cases h
          rw [this]
          exact h3
        | put q v next =>
          refine ih _ ?_ ⟨(s.file j q, .whole v) :: new, by simp [h1], hset _ _ (fun e h => by simp [h]) ⟨l0 ++ [(q, v)], ?_, ?_⟩⟩
          · intro e he
            rcases List.mem_cons.1 he with rfl | he
            · exact ⟨j, q, rfl⟩
            · exact hp e he
          · rw [h3]
            simp [Prog.blind]
          · intro e he
            rcases List.mem_append.1 he with he | he
            · exact List.mem_cons_of_mem _ (h4 e he)
            · rw [List.mem_singleton] at he
              subst he
              simp
  exact this order _ hown ⟨[], rfl, fun i x hx => by cases hx⟩

/-- **C144, violated for names with brackets**, own files.  The products of a network `run[12]` are
never found again: every session computes and writes all of them once more, even if all are there. -/
theorem C144_recomputed_violated {dir : List Text} (hd : ∀ p ∈ dir, Ordinary p) {u t v : Text} (hu : Ordinary u) (ht : Choice t)
    (hin : '[' ∉ t) (hv : Ordinary v) (hdot : u.head? ≠ some '.') (hne : u ≠ []) (ext : What → Text) (fs : Fs V)
    (hown : ∀ e ∈ fs, ∃ i q, e.1 = Site.file ⟨dir, u ++ '[' :: (t ++ ']' :: v), ext⟩ i q) {order jobs : List Nat}
    (hf : Finished (Pool.run ⟨dir, u ++ '[' :: (t ++ ']' :: v), ext⟩ (fun i => workerP opt (calc' i) taus) fs order) jobs) :
    ∃ new, (Pool.run ⟨dir, u ++ '[' :: (t ++ ']' :: v), ext⟩ (fun i => workerP opt (calc' i) taus) fs order).files = new ++ fs ∧
      ∀ i ∈ jobs, (∀ tau ∈ taus, ∀ k, opt.use k = true → ((calc' i).inter k tau).isSome) → ∀ tau ∈ taus, ∀ w, Requested opt w →
        ∃ x, (Site.file ⟨dir, u ++ '[' :: (t ++ ']' :: v), ext⟩ i ((calc' i).label tau, w), File.whole x) ∈ new := by
  set s : Site := ⟨dir, u ++ '[' :: (t ++ ']' :: v), ext⟩ with hs
  obtain ⟨new, h1, h2⟩ := pool_blind s (fun i => workerP opt (calc' i) taus) fs order hown (by
    intro j q i q'
    rw [Bool.eq_false_iff]
    intro h
    rw [stem_eq] at h
    have e1 : s.net ++ tail i q' = u ++ '[' :: (t ++ ']' :: (v ++ tail i q')) := by simp [hs]
    rw [e1] at h
    obtain ⟨d, hdt, r, hr⟩ := (C144_brackets hd hu ht (Ordinary.append hv (tail_ordinary _ _)) hdot hne _).1 h
    unfold Site.file at hr
    rw [stem_eq] at hr
    have h1 := List.append_cancel_left hr
    simp only [hs, List.cons.injEq, and_true, List.append_assoc, List.cons_append] at h1
    have h2 := List.append_cancel_left h1
    rw [List.cons.injEq] at h2
    exact hin (h2.1 ▸ hdt))
  refine ⟨new, h1, fun i hi hc tau htau w hw => ?_⟩
  have hfi := hf i hi
  cases hp : (Pool.run s (fun i => workerP opt (calc' i) taus) fs order).proc i with
  | none => rw [hp] at hfi; exact hfi.elim
  | some x =>
    rw [hp] at hfi
    cases x with
    | ask q next => exact hfi.elim
    | put q v next => exact hfi.elim
    | done =>
      obtain ⟨l, h3, h4⟩ := h2 i _ hp
      obtain ⟨x, hx⟩ := taus_blind opt (calc' i) taus hc htau hw
      refine ⟨x, h4 ((((calc' i).label tau), w), x) ?_⟩
      have h5 : (workerP opt (calc' i) taus).blind = (taus.foldr (tauP opt (calc' i)) .done).blind := by
        unfold workerP
        rw [checkP_blind _ _ _ (List.ne_nil_of_mem htau)]
        simp
      simp only [Prog.blind, List.append_nil] at h3
      rw [← h3, h5]
      exact hx

/-! ## Examples -/

section Examples

open Verif.CovMain (Four)

theorem text_ordinary (r : Four) : Ordinary r.text := by
  have h : ∀ x : Text, Ordinary x → ∀ c, Ordinary [c] → ∀ y, Ordinary y → Ordinary (x ++ c :: y) :=
    fun x hx c hc y hy => Ordinary.append hx (Ordinary.append hc hy)
  unfold Four.text
  have h3 : Ordinary ((if r.e < 0 then '-' else '+') :: padded 2 r.e.natAbs) := by
    split
    · exact h [] (by decide) _ (by decide) _ (padded_ordinary _ _)
    · exact h [] (by decide) _ (by decide) _ (padded_ordinary _ _)
  exact h _ (h _ (padded_ordinary _ _) _ (by decide) _ (padded_ordinary _ _)) _ (by decide) _ h3

/-- A waiting time as it is written. -/
def written (r : Four) : Label := ⟨r.text, (Verif.CovMain.text_no r).1, text_ordinary r⟩

/-- A directory `out` with files of a network `net`. -/
def exSite : Site := ⟨["out".toList], "net".toList, fun _ => ".pickle".toList⟩

/-- Two waiting times, 1 and 10. -/
def exTaus : List Four := [⟨1000, 0, by decide⟩, ⟨1000, 1, by decide⟩]

/-- Computations of a slice whose results are numbers. -/
def exCalc (i : Nat) : Calc Four Label ℚ where
  label := written
  inter k tau := some (tau.value + i + if k = .lin then 1 / 3 else 0)
  round v := ⌊v⌋
  slice _ rev v := if rev then -v else v
  flow _ _ v := 2 * v

/-- All files are asked for. -/
def exOpt : Opt := ⟨fun _ => true, true, true, true, false⟩

/-- The hypotheses of `C145_complete`, `C145_others` and `C145_any_order`: a directory with a file of
another network, a first session stopped after three steps, and a second one that comes to its end
with two slices. -/
example : exSite.Plain ∧ ∃ (fs : Fs ℚ) (order : List Nat), fs ≠ [] ∧ History exSite (fun i => workerP exOpt (exCalc i) exTaus) fs ∧
    Finished (Pool.run exSite (fun i => workerP exOpt (exCalc i) exTaus) fs order) [0, 3] ∧ (∀ i ∈ order, i ∈ [0, 3]) ∧
    (∀ i, ∀ a ∈ exTaus, ∀ b ∈ exTaus, (exCalc i).label a = (exCalc i).label b → a = b) ∧
    (∀ i, ∀ tau ∈ exTaus, ∀ k, exOpt.use k = true → ((exCalc i).inter k tau).isSome) ∧ Requested exOpt (.flow .lin true) := by
  obtain ⟨N, hN⟩ := C145_finishes exSite exOpt exCalc exTaus
  refine ⟨⟨by decide, by decide⟩,
    (Pool.run exSite (fun i => workerP exOpt (exCalc i) exTaus) [(["out".toList, "other".toList], .whole 1)] [0, 3, 0]).files,
    List.replicate (N 0) 0 ++ List.replicate (N 3) 3, ?_, .session _ (.start _ ?_), hN _ _ _ ?_, ?_, ?_, fun _ _ _ _ _ => rfl,
    ⟨rfl, rfl, rfl⟩⟩
  · intro h
    have := congrArg List.length h
    revert this
    decide +kernel
  · intro e he r h
    rw [List.mem_singleton] at he
    subst he
    have h := congrArg (fun p : Path => (p.getD 1 []).take 3) h
    revert h
    simp [exSite]
  · intro i hi
    simp only [List.mem_cons, List.not_mem_nil, or_false] at hi
    rcases hi with rfl | rfl <;> simp
  · intro i hi
    rcases List.mem_append.1 hi with hi | hi <;> rw [List.eq_of_mem_replicate hi] <;> simp
  · intro i a ha b hb h
    have h' : a.text = b.text := congrArg Subtype.val h
    simp only [exTaus, List.mem_cons, List.not_mem_nil, or_false] at ha hb
    rcases ha with rfl | rfl <;> rcases hb with rfl | rfl <;> first | rfl | exact absurd h' (by decide +kernel)

/-- The hypotheses of `C144_recomputed_violated` and `C144_skipped_violated`: the names `run[12]` and
`run1`. -/
example : Ordinary "run".toList ∧ Choice "12".toList ∧ '[' ∉ "12".toList ∧ "run".toList.head? ≠ some '.' ∧ '1' ∈ "12".toList ∧
    Ordinary ([] : Text) := by
  refine ⟨by decide, ⟨by decide, by decide, by decide, by decide⟩, by decide, by decide, by decide, by decide⟩

/-- … the files of `run1`, and files of `run[12]`. -/
example : ∃ fs : Fs ℚ, ∀ i ∈ [0, 3], ∀ tau ∈ exTaus, ∀ k rev,
    (fs.get (Site.file ⟨["out".toList], "run".toList ++ '1' :: [], fun _ => ".pickle".toList⟩ i ((exCalc i).label tau, .slice k rev))).isSome := by
  refine ⟨[0, 3].flatMap fun i => exTaus.flatMap fun tau => [(Kind.expm, false), (.expm, true), (.lin, false), (.lin, true)].map fun x =>
    (Site.file ⟨["out".toList], "run".toList ++ '1' :: [], fun _ => ".pickle".toList⟩ i ((exCalc i).label tau, .slice x.1 x.2), .whole 0), ?_⟩
  intro i hi tau ht k rev
  rw [get_isSome]
  refine ⟨_, List.mem_flatMap.2 ⟨i, hi, List.mem_flatMap.2 ⟨tau, ht, List.mem_map.2 ⟨(k, rev), ?_, rfl⟩⟩⟩, rfl⟩
  cases k <;> cases rev <;> simp

/-- … and the machines of `C145_batches`: five slices, two machines, one slice skipped. -/
example : (List.range 2).flatMap (machineJobs ([0, 1, 2, 3, 4, 5] : List ℚ) 2 [1]) = [0, 2, 3, 4] := by
  rw [C145_batches _ (by decide)]
  decide +kernel

end Examples

end Verif.LapMain
