import Mathlib.Tactic.NormNum
import Verif.Laps.Spec
import Verif.MatFiles.Props

/-! # The files of a time slice (C80) -/

set_option linter.dupNamespace false
set_option linter.unusedSectionVars false

namespace Verif.Laps

open Verif.Scripts (Kind File)

variable {τ L V : Type} [DecidableEq L]

/-- **C80.** Searching for the files of one kind finds no file of another kind. -/
theorem C80_names (a b : What) (h : a.suffix <+: b.suffix) : a = b := by
  have key : ∀ a b : What, a.suffix.isPrefixOf b.suffix = true → a = b := by
    intro a b
    rcases a with (_ | _) | ⟨_ | _, _ | _⟩ | ⟨_ | _, _ | _⟩ <;>
    rcases b with (_ | _) | ⟨_ | _, _ | _⟩ | ⟨_ | _, _ | _⟩ <;> decide
  exact key a b (List.isPrefixOf_iff_prefix.2 h)

/-! ## Invariants of a run -/

/-- A property of the disk that holds after every write of the run. -/
def Safe (P : Disk L V → Prop) (d : Disk L V) (r : Run L V) : Prop :=
  r.disk = r.log.foldl write d ∧ ∀ ws, ws <+: r.log → P (ws.foldl write d)

theorem Safe.now {P : Disk L V → Prop} {d : Disk L V} {r : Run L V} (h : Safe P d r) : P r.disk := by
  rw [h.1]; exact h.2 _ (List.prefix_refl _)

theorem Safe.put {P : Disk L V → Prop} {d : Disk L V} {r : Run L V} (h : Safe P d r) (key : L × What)
    (v : V) (hp : P (write r.disk ⟨key, v⟩)) : Safe P d (r.put key v) := by
  unfold Run.put
  refine ⟨by simp [h.1], fun ws hws => ?_⟩
  rcases List.prefix_concat_iff.1 hws with e | hws
  · rw [e]
    simp only [List.foldl_append, List.foldl_cons, List.foldl_nil, ← h.1]
    exact hp
  · exact h.2 ws hws

theorem write_same (d : Disk L V) (key : L × What) (v : V) : write d ⟨key, v⟩ key = some (.whole v) := by
  unfold write; simp

theorem write_other (d : Disk L V) {key q : L × What} (v : V) (h : q ≠ key) : write d ⟨key, v⟩ q = d q := by
  unfold write; simp [h]

/-- The steps of a waiting time, seen from an invariant. -/
theorem interStep_safe {opt : Opt} {c : Calc τ L V} {tau : τ} {k : Kind} {P : Disk L V → Prop}
    {d : Disk L V} {r : Run L V} (h : Safe P d r)
    (hp : ∀ v, c.inter k tau = some v → opt.use k = true → opt.saveInter = true →
      r.disk (c.label tau, .inter k) = none → P (write r.disk ⟨(c.label tau, .inter k), c.round v⟩)) :
    match interStep opt c tau k r with
    | .error r' => r' = r ∧ c.inter k tau = none ∧ opt.use k = true
    | .ok (r', m) => Safe P d r' ∧ (m.isSome = opt.use k) ∧
        (∀ q, (r.disk q).isSome → r'.disk q = r.disk q) ∧
        (opt.use k = true → opt.saveInter = true → (r'.disk (c.label tau, .inter k)).isSome) ∧
        (∀ x, m = some x → ∃ v, c.inter k tau = some v ∧
          (x = v ∨ (opt.inPlace = true ∧ opt.saveInter = true ∧ x = c.round v))) := by
  unfold interStep
  by_cases hu : opt.use k = false
  · rw [if_pos hu]
    refine ⟨h, by simp [hu], fun q _ => rfl, fun e => ?_, fun x hx => ?_⟩
    · rw [hu] at e; simp at e
    · simp at hx
  · have hu' : opt.use k = true := by simpa using hu
    rw [if_neg hu]
    cases hv : c.inter k tau with
    | none => exact ⟨rfl, rfl, hu'⟩
    | some v =>
      dsimp only
      by_cases hs : opt.saveInter = true ∧ (r.disk (c.label tau, .inter k)).isSome = false
      · rw [if_pos hs]
        have h0 : r.disk (c.label tau, .inter k) = none := by
          simpa using hs.2
        refine ⟨h.put _ _ (hp v hv hu' hs.1 h0), by simp [hu'], ?_, ?_, ?_⟩
        · intro q hq
          unfold Run.put
          dsimp only
          apply write_other
          rintro rfl
          rw [h0] at hq; simp at hq
        · intro _ _
          unfold Run.put
          dsimp only
          rw [write_same]; rfl
        · intro x hx
          refine ⟨v, rfl, ?_⟩
          simp only [Option.some.injEq] at hx
          subst hx
          cases hi : opt.inPlace with
          | true => exact .inr ⟨rfl, hs.1, by simp⟩
          | false => exact .inl (by simp)
      · rw [if_neg hs]
        refine ⟨h, by simp [hu'], fun q _ => rfl, ?_, ?_⟩
        · intro _ h2
          by_contra h3
          exact hs ⟨h2, by simpa using h3⟩
        · intro x hx
          simp only [Option.some.injEq] at hx
          exact ⟨v, rfl, .inl hx.symm⟩

theorem sliceStep_safe {opt : Opt} {c : Calc τ L V} {tau : τ} {k : Kind} {rev : Bool} {P : Disk L V → Prop}
    {d : Disk L V} {r : Run L V} {m : Option V} (h : Safe P d r)
    (hflow : ∀ x, m = some x → opt.flow = true → r.disk (c.label tau, .slice k rev) = none →
      P (write r.disk ⟨(c.label tau, .flow k rev), c.flow k rev x⟩))
    (hslice : ∀ x d', m = some x → P d' → (∀ q, q ≠ (c.label tau, What.flow k rev) → d' q = r.disk q) →
      (opt.flow = true → (d' (c.label tau, .flow k rev)).isSome) →
      r.disk (c.label tau, .slice k rev) = none →
      P (write d' ⟨(c.label tau, .slice k rev), c.slice k rev x⟩)) :
    Safe P d (sliceStep opt c tau k rev m r) ∧
    (∀ q, q ≠ (c.label tau, What.flow k rev) → (r.disk q).isSome →
      (sliceStep opt c tau k rev m r).disk q = r.disk q) ∧
    (∀ q, (r.disk q).isSome → ((sliceStep opt c tau k rev m r).disk q).isSome) ∧
    (∀ q, q ≠ (c.label tau, What.flow k rev) → q ≠ (c.label tau, What.slice k rev) →
      (sliceStep opt c tau k rev m r).disk q = r.disk q) ∧
    (m.isSome → ((sliceStep opt c tau k rev m r).disk (c.label tau, .slice k rev)).isSome) := by
  unfold sliceStep
  cases m with
  | none => exact ⟨h, fun q _ _ => rfl, fun q hq => hq, fun q _ _ => rfl, fun h => by simp at h⟩
  | some x =>
    dsimp only
    by_cases hs : (r.disk (c.label tau, .slice k rev)).isSome = true
    · rw [if_pos hs]
      exact ⟨h, fun q _ _ => rfl, fun q hq => hq, fun q _ _ => rfl, fun _ => hs⟩
    · rw [if_neg hs]
      have h0 : r.disk (c.label tau, .slice k rev) = none := by simpa using hs
      have hne : ∀ q, (r.disk q).isSome → q ≠ (c.label tau, What.slice k rev) := by
        rintro q hq rfl
        exact hs hq
      by_cases hf : opt.flow = true
      · rw [if_pos hf]
        have h1 := h.put _ _ (hflow x rfl hf h0)
        have h2 := h1.put (c.label tau, .slice k rev) (c.slice k rev x) (hslice x _ rfl h1.now
          (fun q hq => by unfold Run.put; exact write_other _ _ hq)
          (fun _ => by unfold Run.put; dsimp only; rw [write_same]; rfl) h0)
        refine ⟨h2, ?_, ?_, ?_, ?_⟩
        · intro q hq hq2
          unfold Run.put
          dsimp only
          rw [write_other _ _ (hne q hq2), write_other _ _ hq]
        · intro q hq
          unfold Run.put
          dsimp only
          rw [write_other _ _ (hne q hq)]
          by_cases e : q = (c.label tau, What.flow k rev)
          · rw [e, write_same]; rfl
          · rw [write_other _ _ e]; exact hq
        · intro q hq hq2
          unfold Run.put
          dsimp only
          rw [write_other _ _ hq2, write_other _ _ hq]
        · intro _
          unfold Run.put
          dsimp only
          rw [write_same]; rfl
      · rw [if_neg hf]
        refine ⟨h.put _ _ (hslice x _ rfl h.now (fun q _ => rfl) (fun e => absurd e hf) h0), ?_, ?_, ?_, ?_⟩
        · intro q _ hq2
          unfold Run.put
          exact write_other _ _ (hne q hq2)
        · intro q hq
          unfold Run.put
          dsimp only
          rw [write_other _ _ (hne q hq)]; exact hq
        · intro q _ hq2
          unfold Run.put
          exact write_other _ _ hq2
        · intro _
          unfold Run.put
          dsimp only
          rw [write_same]; rfl

/-- What holds of every disk that runs with these options leave behind. -/
structure Inv (opt : Opt) (c : Calc τ L V) (taus : List τ) (d : Disk L V) : Prop where
  content : ∀ tau ∈ taus, ∀ w f, d (c.label tau, w) = some f → ∃ x, f = .whole x ∧
    (Content c false tau w x ∨ (opt.inPlace = true ∧ opt.saveInter = true ∧ Content c true tau w x))
  before : ∀ tau ∈ taus, ∀ k rev, (d (c.label tau, .slice k rev)).isSome →
    (∀ k', opt.use k' = true → opt.saveInter = true → (d (c.label tau, .inter k')).isSome) ∧
    (opt.flow = true → (d (c.label tau, .flow k rev)).isSome)

theorem inv_empty (opt : Opt) (c : Calc τ L V) (taus : List τ) : Inv opt c taus empty :=
  ⟨fun _ _ _ _ h => by simp [empty] at h, fun _ _ _ _ h => by simp [empty] at h⟩

theorem isSome_write {d : Disk L V} {w : Write L V} {q : L × What} (h : (d q).isSome) :
    (write d w q).isSome := by
  unfold write
  split
  · rfl
  · exact h

/-- A write keeps the invariant if its content is right and the order of the files is kept. -/
theorem Inv.write {opt : Opt} {c : Calc τ L V} {taus : List τ} {d : Disk L V} (h : Inv opt c taus d)
    (hd : ∀ a ∈ taus, ∀ b ∈ taus, c.label a = c.label b → a = b) {tau : τ} (ht : tau ∈ taus) {w : What} {x : V}
    (hc : Content c false tau w x ∨ (opt.inPlace = true ∧ opt.saveInter = true ∧ Content c true tau w x))
    (hb : ∀ k rev, w = .slice k rev →
      (∀ k', opt.use k' = true → opt.saveInter = true → (d (c.label tau, .inter k')).isSome) ∧
      (opt.flow = true → (d (c.label tau, .flow k rev)).isSome)) :
    Inv opt c taus (write d ⟨(c.label tau, w), x⟩) := by
  constructor
  · intro tau' ht' w' f hf
    by_cases e : (c.label tau', w') = (c.label tau, w)
    · rw [e, write_same] at hf
      simp only [Prod.mk.injEq] at e
      have := hd _ ht' _ ht e.1
      subst this
      obtain ⟨_, rfl⟩ := e
      simp only [Option.some.injEq] at hf
      exact ⟨x, hf.symm, hc⟩
    · rw [write_other _ _ e] at hf
      exact h.content tau' ht' w' f hf
  · intro tau' ht' k rev hs
    have key : (∀ k', opt.use k' = true → opt.saveInter = true → (d (c.label tau', .inter k')).isSome) ∧
        (opt.flow = true → (d (c.label tau', .flow k rev)).isSome) := by
      by_cases e : (c.label tau', What.slice k rev) = (c.label tau, w)
      · simp only [Prod.mk.injEq] at e
        have := hd _ ht' _ ht e.1
        subst this
        exact hb k rev e.2.symm
      · rw [write_other _ _ e] at hs
        exact h.before tau' ht' k rev hs
    exact ⟨fun k' h1 h2 => isSome_write (key.1 k' h1 h2), fun h1 => isSome_write (key.2 h1)⟩

/-- The slice files that a step has to leave behind. -/
theorem slice_inv {opt : Opt} {c : Calc τ L V} {taus : List τ}
    (hd : ∀ a ∈ taus, ∀ b ∈ taus, c.label a = c.label b → a = b) {tau : τ} (ht : tau ∈ taus)
    {d : Disk L V} {r : Run L V} (h : Safe (Inv opt c taus) d r) (k : Kind) (rev : Bool) (m : Option V)
    (hm : ∀ x, m = some x → ∃ v, c.inter k tau = some v ∧
          (x = v ∨ (opt.inPlace = true ∧ opt.saveInter = true ∧ x = c.round v)))
    (hi : ∀ k', opt.use k' = true → opt.saveInter = true → (r.disk (c.label tau, .inter k')).isSome) :
    Safe (Inv opt c taus) d (sliceStep opt c tau k rev m r) ∧
    (∀ q, (r.disk q).isSome → ((sliceStep opt c tau k rev m r).disk q).isSome) ∧
    (m.isSome → ((sliceStep opt c tau k rev m r).disk (c.label tau, .slice k rev)).isSome) := by
  have key := sliceStep_safe (opt := opt) (c := c) (tau := tau) (k := k) (rev := rev) (m := m) h ?_ ?_
  · exact ⟨key.1, key.2.2.1, key.2.2.2.2⟩
  · intro x hx _ _
    obtain ⟨v, hv, hx'⟩ := hm x hx
    refine h.now.write hd ht ?_ (fun _ _ e => by simp at e)
    rcases hx' with rfl | ⟨h1, h2, rfl⟩
    · exact .inl ⟨x, hv, rfl⟩
    · exact .inr ⟨h1, h2, v, hv, rfl⟩
  · intro x d' hx hP hsame hfl _
    obtain ⟨v, hv, hx'⟩ := hm x hx
    refine hP.write hd ht ?_ ?_
    · rcases hx' with rfl | ⟨h1, h2, rfl⟩
      · exact .inl ⟨x, hv, rfl⟩
      · exact .inr ⟨h1, h2, v, hv, rfl⟩
    · intro k' rev' e
      simp only [What.slice.injEq] at e
      obtain ⟨rfl, rfl⟩ := e
      refine ⟨fun k' h1 h2 => ?_, hfl⟩
      rw [hsame _ (by simp)]
      exact hi k' h1 h2

/-- One waiting time keeps the invariant, loses no file, and leaves behind all the requested
files if its matrices can be computed. -/
theorem tauStep_inv {opt : Opt} {c : Calc τ L V} {taus : List τ}
    (hd : ∀ a ∈ taus, ∀ b ∈ taus, c.label a = c.label b → a = b) {tau : τ} (ht : tau ∈ taus)
    {d : Disk L V} {r : Run L V} (h : Safe (Inv opt c taus) d r) :
    Safe (Inv opt c taus) d (tauStep opt c r tau) ∧
    (∀ q, (r.disk q).isSome → ((tauStep opt c r tau).disk q).isSome) ∧
    ((∀ k, opt.use k = true → (c.inter k tau).isSome) →
      ∀ w, Requested opt w → ((tauStep opt c r tau).disk (c.label tau, w)).isSome) := by
  have step : ∀ (k : Kind) (r : Run L V), Safe (Inv opt c taus) d r → _ := fun k r h =>
    interStep_safe (opt := opt) (c := c) (tau := tau) (k := k) h (fun v hv _ _ _ =>
      h.now.write hd ht (w := .inter k) (x := c.round v) (.inl ⟨v, hv, rfl⟩)
        (fun _ _ e => by simp at e))
  unfold tauStep
  have h1 := step .expm r h
  revert h1
  cases interStep opt c tau .expm r with
  | error r' =>
    rintro ⟨rfl, h2, h3⟩
    refine ⟨h, fun q hq => hq, fun h4 => ?_⟩
    have := h4 .expm h3
    rw [h2] at this; simp at this
  | ok p =>
    obtain ⟨r1, e⟩ := p
    rintro ⟨s1, u1, keep1, file1, mem1⟩
    dsimp only
    have h2 := step .lin r1 s1
    revert h2
    cases interStep opt c tau .lin r1 with
    | error r' =>
      rintro ⟨rfl, h2, h3⟩
      refine ⟨s1, fun q hq => by rw [keep1 q hq]; exact hq, fun h4 => ?_⟩
      have := h4 .lin h3
      rw [h2] at this; simp at this
    | ok p =>
      obtain ⟨r2, l⟩ := p
      rintro ⟨s2, u2, keep2, file2, mem2⟩
      dsimp only
      have i2 : ∀ k', opt.use k' = true → opt.saveInter = true → (r2.disk (c.label tau, .inter k')).isSome := by
        intro k' hu hs
        cases k' with
        | expm => rw [keep2 _ (file1 hu hs)]; exact file1 hu hs
        | lin => exact file2 hu hs
      have mono2 : ∀ q, (r.disk q).isSome → (r2.disk q).isSome := by
        intro q hq
        have : (r1.disk q).isSome := by rw [keep1 q hq]; exact hq
        rw [keep2 q this]; exact this
      by_cases hsl : opt.slices = true
      · rw [if_pos hsl]
        obtain ⟨a1, a2, a3⟩ := slice_inv hd ht s2 .expm false e mem1 i2
        obtain ⟨b1, b2, b3⟩ := slice_inv hd ht a1 .lin false l mem2 fun k' x y => a2 _ (i2 k' x y)
        obtain ⟨c1, c2, c3⟩ := slice_inv hd ht b1 .expm true e mem1 fun k' x y => b2 _ (a2 _ (i2 k' x y))
        obtain ⟨d1, d2, d3⟩ := slice_inv hd ht c1 .lin true l mem2
          fun k' x y => c2 _ (b2 _ (a2 _ (i2 k' x y)))
        refine ⟨d1, fun q hq => d2 _ (c2 _ (b2 _ (a2 _ (mono2 q hq)))), fun _ w hw => ?_⟩
        have slices : ∀ k rev, opt.use k = true → ((sliceStep opt c tau .lin true l
            (sliceStep opt c tau .expm true e (sliceStep opt c tau .lin false l
              (sliceStep opt c tau .expm false e r2)))).disk (c.label tau, .slice k rev)).isSome := by
          intro k rev hu
          cases k with
          | expm =>
            rw [← u1] at hu
            cases rev with
            | false => exact d2 _ (c2 _ (b2 _ (a3 hu)))
            | true => exact d2 _ (c3 hu)
          | lin =>
            rw [← u2] at hu
            cases rev with
            | false => exact d2 _ (c2 _ (b3 hu))
            | true => exact d3 hu
        cases w with
        | inter k => exact d2 _ (c2 _ (b2 _ (a2 _ (i2 k hw.1 hw.2))))
        | slice k rev => exact slices k rev hw.1
        | flow k rev => exact (d1.now.before tau ht k rev (slices k rev hw.1)).2 hw.2.2
      · rw [if_neg hsl]
        refine ⟨s2, mono2, fun _ w hw => ?_⟩
        cases w with
        | inter k => exact i2 k hw.1 hw.2
        | slice k rev => exact absurd hw.2 hsl
        | flow k rev => exact absurd hw.2.1 hsl

theorem fold_inv {opt : Opt} {c : Calc τ L V} {taus : List τ}
    (hd : ∀ a ∈ taus, ∀ b ∈ taus, c.label a = c.label b → a = b) {d : Disk L V} :
    ∀ (l : List τ), (∀ t ∈ l, t ∈ taus) → ∀ r : Run L V, Safe (Inv opt c taus) d r →
      Safe (Inv opt c taus) d (l.foldl (tauStep opt c) r) ∧
      (∀ q, (r.disk q).isSome → ((l.foldl (tauStep opt c) r).disk q).isSome) ∧
      ∀ tau ∈ l, (∀ k, opt.use k = true → (c.inter k tau).isSome) →
        ∀ w, Requested opt w → ((l.foldl (tauStep opt c) r).disk (c.label tau, w)).isSome
  | [], _, r, h => ⟨h, fun q hq => hq, fun tau ht => by simp at ht⟩
  | t :: l, hl, r, h => by
    obtain ⟨h1, h2, h3⟩ := tauStep_inv hd (hl t (List.mem_cons_self ..)) h
    obtain ⟨g1, g2, g3⟩ := fold_inv hd l (fun x hx => hl x (List.mem_cons_of_mem _ hx)) _ h1
    rw [List.foldl_cons]
    refine ⟨g1, fun q hq => g2 q (h2 q hq), fun tau ht hc w hw => ?_⟩
    rcases List.mem_cons.1 ht with rfl | ht
    · exact g2 _ (h3 hc w hw)
    · exact g3 tau ht hc w hw

theorem worker_safe {opt : Opt} {c : Calc τ L V} {taus : List τ}
    (hd : ∀ a ∈ taus, ∀ b ∈ taus, c.label a = c.label b → a = b) {d : Disk L V} (h : Inv opt c taus d) :
    Safe (Inv opt c taus) d (worker opt c taus d) := by
  have h0 : Safe (Inv opt c taus) d ⟨d, []⟩ :=
    ⟨rfl, fun ws hws => by rw [List.prefix_nil.1 hws]; exact h⟩
  unfold worker
  split
  · exact h0
  · exact (fold_inv hd taus (fun t ht => ht) _ h0).1

theorem stopped_inv {opt : Opt} {c : Calc τ L V} {taus : List τ}
    (hd : ∀ a ∈ taus, ∀ b ∈ taus, c.label a = c.label b → a = b) {d : Disk L V}
    (h : Stopped opt c taus d) : Inv opt c taus d := by
  induction h with
  | start => exact inv_empty ..
  | run ws _ hws ih => exact (worker_safe hd ih).2 ws hws

/-! ## C80 -/

/-- **C80.** After any number of runs that were stopped at any point between two writes, one
complete run leaves behind every requested file of every waiting time whose matrices can be
computed, with the right content: the inter-event matrices, rounded, and their products and
integrals in both directions of time, made from the matrices as computed, or, if the file of the
inter-event matrices is written without differences, possibly from the rounded ones.  Needs the
same options in all runs, whole files, and waiting times that are written differently. -/
theorem C80_resumed_partial (opt : Opt) (c : Calc τ L V) (taus : List τ)
    (hd : ∀ a ∈ taus, ∀ b ∈ taus, c.label a = c.label b → a = b) (d : Disk L V)
    (h : Stopped opt c taus d) (tau : τ) (ht : tau ∈ taus)
    (hc : ∀ k, opt.use k = true → (c.inter k tau).isSome) (w : What) (hw : Requested opt w) :
    ∃ x, (worker opt c taus d).disk (c.label tau, w) = some (.whole x) ∧
      (Content c false tau w x ∨ (opt.inPlace = true ∧ opt.saveInter = true ∧ Content c true tau w x)) := by
  have hi := stopped_inv hd h
  have hs := worker_safe hd hi
  have hsome : ((worker opt c taus d).disk (c.label tau, w)).isSome := by
    unfold worker
    split
    · rename_i ha
      unfold allThere at ha
      simp only [Bool.or_eq_true, Bool.and_eq_true, List.all_eq_true, Bool.not_eq_true'] at ha
      dsimp only
      rcases ha with ⟨⟨h1, h2⟩, h3⟩ | ⟨⟨h1, h2⟩, h3, h4⟩
      · cases w with
        | inter k => cases k with
          | expm => exact h1 tau ht
          | lin => exact h2 tau ht
        | slice k rev => exact absurd hw.2 (by simp [h3])
        | flow k rev => exact absurd hw.2.1 (by simp [h3])
      · have hsl : ∀ k rev, (d (c.label tau, .slice k rev)).isSome := by
          intro k rev
          cases k <;> cases rev
          · exact h1 tau ht
          · exact h2 tau ht
          · exact h3 tau ht
          · exact h4 tau ht
        cases w with
        | inter k => exact (hi.before tau ht k false (hsl k false)).1 k hw.1 hw.2
        | slice k rev => exact hsl k rev
        | flow k rev => exact (hi.before tau ht k rev (hsl k rev)).2 hw.2.2
    · have h0 : Safe (Inv opt c taus) d ⟨d, []⟩ :=
        ⟨rfl, fun ws hws => by rw [List.prefix_nil.1 hws]; exact hi⟩
      exact (fold_inv hd taus (fun t ht => ht) _ h0).2.2 tau ht hc w hw
  obtain ⟨f, hf⟩ := Option.isSome_iff_exists.1 hsome
  obtain ⟨x, rfl, hx⟩ := hs.now.content tau ht w f hf
  exact ⟨x, hf, hx⟩

/-- **C80**, without in-place rounding: the files do not depend on where the runs were stopped. -/
theorem C80_same_files (opt : Opt) (c : Calc τ L V) (taus : List τ)
    (hd : ∀ a ∈ taus, ∀ b ∈ taus, c.label a = c.label b → a = b) (d : Disk L V)
    (h : Stopped opt c taus d) (hp : opt.inPlace = false ∨ opt.saveInter = false) (tau : τ) (ht : tau ∈ taus)
    (hc : ∀ k, opt.use k = true → (c.inter k tau).isSome) (w : What) (hw : Requested opt w) :
    (worker opt c taus d).disk (c.label tau, w) = (worker opt c taus empty).disk (c.label tau, w) := by
  obtain ⟨x, h1, h2⟩ := C80_resumed_partial opt c taus hd d h tau ht hc w hw
  obtain ⟨y, h3, h4⟩ := C80_resumed_partial opt c taus hd empty .start tau ht hc w hw
  have hno : ¬ (opt.inPlace = true ∧ opt.saveInter = true) := by
    rintro ⟨a, b⟩
    rcases hp with hp | hp
    · rw [hp] at a; simp at a
    · rw [hp] at b; simp at b
  have h2' := h2.resolve_right fun h => hno ⟨h.1, h.2.1⟩
  have h4' := h4.resolve_right fun h => hno ⟨h.1, h.2.1⟩
  rw [h1, h3]
  cases w with
  | inter k =>
    obtain ⟨v, hv, rfl⟩ := h2'
    obtain ⟨v', hv', rfl⟩ := h4'
    rw [hv] at hv'; simp only [Option.some.injEq] at hv'; rw [hv']
  | slice k rev =>
    obtain ⟨v, hv, rfl⟩ := h2'
    obtain ⟨v', hv', rfl⟩ := h4'
    rw [hv] at hv'; simp only [Option.some.injEq] at hv'; rw [hv']
  | flow k rev =>
    obtain ⟨v, hv, rfl⟩ := h2'
    obtain ⟨v', hv', rfl⟩ := h4'
    rw [hv] at hv'; simp only [Option.some.injEq] at hv'; rw [hv']

/-! ### Any options, any disk -/

theorem kept_tau (opt : Opt) (c : Calc τ L V) (r : Run L V) (tau : τ) (q : L × What)
    (hq : (r.disk q).isSome) (hfl : ∀ k rev, q.2 ≠ .flow k rev) : (tauStep opt c r tau).disk q = r.disk q := by
  have inter : ∀ (k : Kind) (r : Run L V), (r.disk q).isSome → match interStep opt c tau k r with
      | .error r' => r'.disk q = r.disk q
      | .ok (r', _) => r'.disk q = r.disk q := by
    intro k r hq
    unfold interStep
    by_cases hu : opt.use k = false
    · rw [if_pos hu]
    · rw [if_neg hu]
      cases c.inter k tau with
      | none => rfl
      | some v =>
        dsimp only
        by_cases hs : opt.saveInter = true ∧ (r.disk (c.label tau, .inter k)).isSome = false
        · rw [if_pos hs]
          unfold Run.put
          dsimp only
          apply write_other
          rintro rfl
          rw [hs.2] at hq; simp at hq
        · rw [if_neg hs]
  have slice : ∀ (k : Kind) (rev : Bool) (m : Option V) (r : Run L V), (r.disk q).isSome →
      (sliceStep opt c tau k rev m r).disk q = r.disk q := by
    intro k rev m r hq
    unfold sliceStep
    cases m with
    | none => rfl
    | some v =>
      dsimp only
      split
      · rfl
      · rename_i hs
        have h1 : q ≠ (c.label tau, What.slice k rev) := by
          rintro rfl
          exact hs hq
        have h2 : q ≠ (c.label tau, What.flow k rev) := by
          rintro rfl
          exact hfl k rev rfl
        split
        · unfold Run.put
          dsimp only
          rw [write_other _ _ h1, write_other _ _ h2]
        · unfold Run.put
          exact write_other _ _ h1
  unfold tauStep
  have h1 := inter .expm r hq
  revert h1
  cases interStep opt c tau .expm r with
  | error r' => exact fun h => h
  | ok p =>
    obtain ⟨r1, e⟩ := p
    intro h1
    dsimp only at h1 ⊢
    have q1 : (r1.disk q).isSome := by rw [h1]; exact hq
    have h2 := inter .lin r1 q1
    revert h2
    cases interStep opt c tau .lin r1 with
    | error r' => intro h2; exact h2.trans h1
    | ok p =>
      obtain ⟨r2, l⟩ := p
      intro h2
      dsimp only at h2 ⊢
      have q2 : (r2.disk q).isSome := by rw [h2]; exact q1
      split
      · have a := slice .expm false e _ q2
        have qa : ((sliceStep opt c tau .expm false e r2).disk q).isSome := by rw [a]; exact q2
        have b := slice .lin false l _ qa
        have qb := by rw [← b] at qa; exact qa
        have c' := slice .expm true e _ qb
        have qc := by rw [← c'] at qb; exact qb
        rw [slice .lin true l _ qc, c', b, a, h2, h1]
      · exact h2.trans h1

/-- **C80**: with any options and on any disk, a file of inter-event matrices or of products that
is there is never written again. -/
theorem C80_never_overwritten (opt : Opt) (c : Calc τ L V) (taus : List τ) (d : Disk L V) (q : L × What)
    (hq : (d q).isSome) (hfl : ∀ k rev, q.2 ≠ .flow k rev) : (worker opt c taus d).disk q = d q := by
  unfold worker
  split
  · rfl
  · have : ∀ (l : List τ) (r : Run L V), (r.disk q).isSome → (l.foldl (tauStep opt c) r).disk q = r.disk q := by
      intro l
      induction l with
      | nil => intro r _; rfl
      | cons t l ih =>
        intro r hr
        have h1 := kept_tau opt c r t q hr hfl
        rw [List.foldl_cons, ih _ (by rw [h1]; exact hr), h1]
    exact this taus ⟨d, []⟩ hq

/-- **C80, violated for files that were cut off.** A file that the end of a run has cut off counts
as done: no later run repairs it, with any options. -/
theorem C80_torn_violated (opt : Opt) (c : Calc τ L V) (taus : List τ) (d : Disk L V) (w : Write L V)
    (hfl : ∀ k rev, w.key.2 ≠ .flow k rev) : (worker opt c taus (tear d w)).disk w.key = some .torn := by
  have h : tear d w w.key = some .torn := by unfold tear; simp
  rw [C80_never_overwritten opt c taus (tear d w) w.key (by rw [h]; rfl) hfl, h]

/-- **C80, violated for options that ask for more.** Once the products of both kinds are there for
all waiting times, no run writes anything: inter-event matrices and integrals that are asked for
later never appear. -/
theorem C80_more_asked_violated (opt : Opt) (c : Calc τ L V) (taus : List τ) (d : Disk L V)
    (h : ∀ tau ∈ taus, ∀ k rev, (d (c.label tau, .slice k rev)).isSome) :
    worker opt c taus d = ⟨d, []⟩ := by
  unfold worker
  rw [if_pos]
  unfold allThere
  simp only [Bool.or_eq_true, Bool.and_eq_true, List.all_eq_true, Bool.not_eq_true']
  exact .inr ⟨⟨fun t ht => h t ht .expm false, fun t ht => h t ht .expm true⟩,
    fun t ht => h t ht .lin false, fun t ht => h t ht .lin true⟩

/-- **C80, violated for waiting times that are written alike.** When two waiting times give the
same name, the file of the second one holds what is in the file of the first one. -/
theorem C80_alike_violated (opt : Opt) (c : Calc τ L V) (a b : τ) (hl : c.label a = c.label b)
    (k : Kind) (hu : opt.use k = true) (hs : opt.saveInter = true)
    (hc : ∀ k, opt.use k = true → (c.inter k a).isSome) :
    ∃ v, c.inter k a = some v ∧
      (worker opt c [a, b] empty).disk (c.label b, .inter k) = some (.whole (c.round v)) := by
  have hd : ∀ x ∈ [a], ∀ y ∈ [a], c.label x = c.label y → x = y := by
    intro x hx y hy _
    rw [List.mem_singleton.1 hx, List.mem_singleton.1 hy]
  have hw : worker opt c [a, b] empty = tauStep opt c (tauStep opt c ⟨empty, []⟩ a) b := by
    unfold worker
    rw [if_neg]
    · rfl
    · unfold allThere
      simp [empty]
  have h0 : Safe (Inv opt c [a]) (empty : Disk L V) ⟨empty, []⟩ :=
    ⟨rfl, fun ws hws => by rw [List.prefix_nil.1 hws]; exact inv_empty ..⟩
  obtain ⟨s1, _, s3⟩ := tauStep_inv hd (List.mem_singleton.2 rfl) h0
  have h1 := s3 hc (.inter k) ⟨hu, hs⟩
  obtain ⟨f, hf⟩ := Option.isSome_iff_exists.1 h1
  obtain ⟨x, rfl, hx⟩ := s1.now.content a (List.mem_singleton.2 rfl) _ f hf
  have : ∃ v, c.inter k a = some v ∧ x = c.round v := by
    rcases hx with hx | ⟨_, _, hx⟩ <;> exact hx
  obtain ⟨v, hv, rfl⟩ := this
  refine ⟨v, hv, ?_⟩
  rw [hw, ← hl, kept_tau opt c _ b _ h1 (fun _ _ => by simp), hf]

/-! ### Witnesses -/

section Witness

open Verif.SparseStoch (SSM)
open Verif.MatFiles (exA)

/-- One waiting time and a slice with one event: the product is the inter-event matrix itself, and
rounding is that of `SparseStochMat` with the default tolerance. -/
def exC : Calc Unit Unit (SSM ℚ) where
  label := id
  inter := fun _ _ => some exA
  round := fun A => A.setToZeroes (1/100000000) true false
  slice := fun _ _ A => A
  flow := fun _ _ A => A

/-- All files, no differences. -/
def exO : Opt := ⟨fun _ => true, true, true, false, true⟩

/-- **C80, violated by in-place rounding.** A run that was stopped after the files of inter-event
matrices and then repeated gives another product than a run that was not stopped: the first is
made from the matrices as computed (the entry is `1e-9`), the second from the rounded ones (it is
zero), because saving rounds the matrices that the product is made from. -/
theorem C80_in_place_violated : ∃ d, Stopped exO exC [()] d ∧
    ∃ A B, (worker exO exC [()] d).disk ((), .slice .expm false) = some (.whole A) ∧
      (worker exO exC [()] empty).disk ((), .slice .expm false) = some (.whole B) ∧
      A.dense 0 1 = 1/1000000000 ∧ B.dense 0 1 = 0 := by
  refine ⟨_, .run ((worker exO exC [()] empty).log.take 2) .start (List.take_prefix _ _), exA,
    exA.setToZeroes (1/100000000) true false, rfl, rfl, by decide +kernel, by decide +kernel⟩

/-- The hypotheses of `C80_resumed_partial` can be met, and files are asked for. -/
example : (∀ a ∈ [()], ∀ b ∈ [()], exC.label a = exC.label b → a = b) ∧ Stopped exO exC [()] empty ∧
    (∀ k, exO.use k = true → (exC.inter k ()).isSome) ∧ Requested exO (.inter .lin) ∧
    Requested exO (.slice .expm true) :=
  ⟨fun _ _ _ _ _ => rfl, .start, fun _ _ => rfl, ⟨rfl, rfl⟩, ⟨rfl, rfl⟩⟩

/-- … of `C80_more_asked_violated`: after a run without inter-event matrices, they are missing. -/
example : ∀ tau ∈ [()], ∀ k rev,
    ((worker { exO with saveInter := false } exC [()] empty).disk (exC.label tau, .slice k rev)).isSome := by
  intro _ _ k rev
  cases k <;> cases rev <;> rfl

end Witness

end Verif.Laps
