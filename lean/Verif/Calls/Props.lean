import Verif.Calls.Spec
import Verif.Calls.Worker
import Verif.Laps.Props

/-! # Calls that the library accepts (C138) -/

set_option linter.dupNamespace false
set_option linter.unusedSectionVars false

namespace Verif.Calls

open Verif.Scripts (Kind File)
open Verif.Laps (Opt What Calc Disk Run Requested)

/-! ## The interpreter accepts exactly the calls that fit -/

theorem addKws_ok (s : Sig) (ks : List String) (b : List (String × Slot)) :
    (∃ b', addKws s b ks = .ok b') ↔
      ks.Nodup ∧ (∀ k ∈ ks, k ∉ b.map Prod.fst) ∧
        (∀ k ∈ ks, k ∈ s.params.map Param.name ∨ s.more = true) := by
  induction ks generalizing b with
  | nil => simp [addKws]
  | cons k ks ih =>
    rw [addKws.eq_2]
    unfold addKw
    by_cases h1 : k ∈ b.map Prod.fst
    · rw [if_pos h1]
      constructor
      · rintro ⟨b', h⟩; simp at h
      · rintro ⟨_, h, _⟩; exact absurd h1 (h k (by simp))
    · rw [if_neg h1]
      by_cases h2 : k ∈ s.params.map Param.name ∨ s.more = true
      · rw [if_pos h2]
        simp only
        rw [ih]
        simp only [List.nodup_cons, List.map_append, List.mem_append, List.map_cons, List.map_nil,
          List.mem_cons, List.not_mem_nil, or_false, forall_eq_or_imp]
        constructor
        · rintro ⟨a, b, c⟩
          refine ⟨⟨fun hk => b k hk (.inr rfl), a⟩, ⟨h1, fun x hx e => b x hx (.inl e)⟩, h2, c⟩
        · rintro ⟨⟨a, b⟩, ⟨_, c⟩, _, d⟩
          refine ⟨b, fun x hx e => ?_, d⟩
          rcases e with e | rfl
          · exact c x hx e
          · exact a hx
      · rw [if_neg h2]
        constructor
        · rintro ⟨b', h⟩; simp at h
        · rintro ⟨_, _, h⟩; exact absurd (h k (by simp)) h2

theorem addKws_names (s : Sig) (ks : List String) (b b' : List (String × Slot))
    (h : addKws s b ks = .ok b') : b'.map Prod.fst = b.map Prod.fst ++ ks := by
  induction ks generalizing b with
  | nil => simp only [addKws, Except.ok.injEq] at h; simp [h]
  | cons k ks ih =>
    rw [addKws.eq_2] at h
    unfold addKw at h
    split at h
    · simp at h
    · rename_i b2 h2
      have := ih _ h
      split at h2
      · simp at h2
      · split at h2
        · simp only [Except.ok.injEq] at h2
          rw [this, ← h2]; simp
        · simp at h2

theorem first_names (l : List Param) (n : Nat) :
    (((l.take n).zipIdx).map fun q => (q.1.name, Slot.arg q.2)).map Prod.fst = (l.take n).map Param.name := by
  rw [List.map_map]
  have : (Prod.fst ∘ fun q : Param × Nat => (q.1.name, Slot.arg q.2)) = Param.name ∘ Prod.fst := rfl
  rw [this, ← List.map_map, List.zipIdx_map_fst]

theorem mem_first (l : List Param) (n : Nat) (k : String) :
    k ∈ (l.take n).map Param.name ↔ ∃ i, ∃ h : i < l.length, i < n ∧ l[i].name = k := by
  simp only [List.mem_map, List.mem_take_iff_getElem]
  constructor
  · rintro ⟨p, ⟨i, hi, rfl⟩, rfl⟩
    exact ⟨i, by omega, by omega, rfl⟩
  · rintro ⟨i, h, hn, rfl⟩
    exact ⟨l[i], ⟨i, by omega, rfl⟩, rfl⟩

/-- **C138, when a call is accepted.** For every signature and every call, the interpreter runs the
function exactly when the call fits; otherwise it raises a `TypeError`. -/
theorem C138_accepted (s : Sig) (c : Call) : accepted s c = true ↔ Fits s c := by
  have key : accepted s c = true ↔ ∃ b, bind s c = .ok b := by
    unfold accepted
    cases bind s c <;> simp
  rw [key]
  unfold bind
  by_cases hp : s.pos.length < c.args
  · rw [if_pos hp]
    constructor
    · rintro ⟨b, h⟩; simp at h
    · intro h; have := h.places; omega
  · rw [if_neg hp]
    have hk := addKws_ok s c.kws (((s.pos.take c.args).zipIdx).map fun q => (q.1.name, Slot.arg q.2))
    rw [first_names] at hk
    cases hb : addKws s (((s.pos.take c.args).zipIdx).map fun q => (q.1.name, Slot.arg q.2)) c.kws with
    | error e =>
      rw [hb] at hk
      constructor
      · rintro ⟨b, h⟩; simp at h
      · intro h
        have : ∃ b', (Except.error e : Except Error (List (String × Slot))) = .ok b' := hk.2 ⟨h.once,
          fun k hk hm => by
            obtain ⟨i, hi, hn, e⟩ := (mem_first _ _ _).1 hm
            exact h.free k hk i hi hn e,
          fun k hk => by
            cases hm : s.more with
            | true => exact .inr rfl
            | false =>
              obtain ⟨p, hp, e⟩ := h.known hm k hk
              exact .inl (List.mem_map.2 ⟨p, hp, e⟩)⟩
        obtain ⟨_, h⟩ := this
        simp at h
    | ok b =>
      have hk' := hk.1 ⟨b, hb⟩
      have hn := addKws_names _ _ _ _ hb
      rw [first_names] at hn
      simp only
      rw [hn]
      have hfit : (∀ p ∈ s.params, p.needed = true → p.name ∈ (s.pos.take c.args).map Param.name ++ c.kws) ↔
          Fits s c := by
        constructor
        · intro h
          refine ⟨by omega, hk'.1, fun k hkm i hi hin e => ?_, fun hm k hkm => ?_, fun p hpm hneed => ?_⟩
          · exact hk'.2.1 k hkm ((mem_first _ _ _).2 ⟨i, hi, hin, e⟩)
          · rcases hk'.2.2 k hkm with h2 | h2
            · obtain ⟨p, hp, e⟩ := List.mem_map.1 h2
              exact ⟨p, hp, e⟩
            · rw [hm] at h2; simp at h2
          · rcases List.mem_append.1 (h p hpm hneed) with h2 | h2
            · exact .inl ((mem_first _ _ _).1 h2)
            · exact .inr h2
        · intro h p hpm hneed
          rw [List.mem_append]
          exact (h.given p hpm hneed).imp (mem_first _ _ _).2 id
      cases hf : s.params.find? fun p => p.needed && !((s.pos.take c.args).map Param.name ++ c.kws).contains p.name with
      | none =>
        rw [List.find?_eq_none] at hf
        refine iff_of_true ⟨b, rfl⟩ (hfit.1 fun p hpm hneed => ?_)
        have := hf p hpm
        rw [hneed] at this
        by_contra hno
        apply this
        simp only [Bool.true_and, Bool.not_eq_true', List.contains_eq_mem, decide_eq_false_iff_not]
        exact hno
      | some p =>
        refine iff_of_false (by rintro ⟨b, h⟩; simp at h) fun h => ?_
        have h1 := List.find?_some hf
        have h2 := List.mem_of_find?_eq_some hf
        simp only [Bool.and_eq_true, Bool.not_eq_true', List.contains_eq_mem, decide_eq_false_iff_not] at h1
        exact h1.2 (hfit.2 h p h2 h1.1)

/-- **C138, an option that does not exist.** A call that names a parameter that the function does
not have is refused, whatever the rest of the call, if the function has no `**kwargs`. -/
theorem C138_unknown (s : Sig) (c : Call) (hm : s.more = false) (k : String) (hk : k ∈ c.kws)
    (hu : ∀ p ∈ s.params, p.name ≠ k) : accepted s c = false := by
  rw [← Bool.not_eq_true, C138_accepted]
  intro h
  obtain ⟨p, hp, e⟩ := h.known hm k hk
  exact hu p hp e

/-- **C138, violated for misspelt options of a network.** Building a network accepts any list of
distinct names, so a misspelt option is passed over in silence. -/
theorem C138_misspelt_violated (ks : List String) (h : ks.Nodup) : accepted (sig .network) ⟨0, ks⟩ = true := by
  rw [C138_accepted]
  refine ⟨Nat.zero_le _, h, fun _ _ _ _ hi => absurd hi (by simp), fun hm => ?_, fun p hp hn => ?_⟩
  · simp [sig] at hm
  · exfalso
    have : ∀ p ∈ (sig .network).params, p.needed = false := by decide
    rw [this p hp] at hn
    simp at hn

/-! ## The calls of the scripts -/

/-- The calls that pass `verbose` to a method of the network. -/
def verboseCalls : List Site := lapsCalls.filter fun s =>
  s.kws.contains "verbose" && [Fn.laplacians, .stationary, .inter, .linInter, .trans, .linTrans].contains s.fn

/-- **C138, violated.** The scripts make exactly six calls that the library refuses: the six with
which `run_laplacians_transmats` computes Laplacians, stationary distributions and transition
matrices.  All of them pass `verbose`, which the methods do not have. -/
theorem C138_calls_violated :
    (allCalls.filter fun s => !accepted (sig s.fn) s.call).map Site.line = [355, 365, 393, 418, 461, 501] ∧
    ∀ s ∈ verboseCalls, bind (sig s.fn) s.call = .error (.unexpected "verbose") := by
  decide +kernel

/-- **C138, the other calls.** All other calls of the scripts fit the functions that they call, and so
do these six without `verbose`. -/
theorem C138_calls_partial : (∀ s ∈ allCalls, s ∉ verboseCalls → Fits (sig s.fn) s.call) ∧
    ∀ s ∈ verboseCalls, Fits (sig s.fn) ⟨s.args, s.kws.erase "verbose"⟩ := by
  simp only [← C138_accepted]
  decide +kernel

/-- **C138, the calls of the worker.** The calls of the modelled worker are those of the lines of the
script that compute the static adjacency matrix, the inter-event matrices and their products, each
of the method that is written there. -/
theorem C138_worker_calls : ∀ s ∈ lapsCalls,
    (s.line = 300 → s.fn = .staticAdj ∧ pinned.adj = s.call) ∧
    (s.line = 393 → s.fn = interFn .expm ∧ pinned.inter .expm = s.call) ∧
    (s.line = 418 → s.fn = interFn .lin ∧ pinned.inter .lin = s.call) ∧
    (s.line = 461 → s.fn = transFn .expm ∧ pinned.trans .expm = s.call) ∧
    (s.line = 501 → s.fn = transFn .lin ∧ pinned.trans .lin = s.call) := by
  decide +kernel

/-! ## What becomes of the files -/

variable {τ L V : Type} [DecidableEq L]

theorem pinned_inter (k : Kind) : accepted (sig (interFn k)) (pinned.inter k) = false := by
  cases k <;> decide +kernel

/-- **C138, violated: no matrix is ever written.** For all options that ask for something to
compute, all waiting times and whatever is on the disk, `run_laplacians_transmats` leaves all
matrix files of a slice as they were; of the files that were asked for, only the static adjacency
matrix is written. -/
theorem C138_nothing_violated (saveAdj : Bool) (A : V) (opt : Opt) (hu : opt.use .expm = true ∨ opt.use .lin = true)
    (c : Calc τ L V) (taus : List τ) (d : Files L V) :
    worker pinned saveAdj A opt c taus d =
      some ⟨if saveAdj = true ∧ d.adj.isSome = false then some (.whole A) else d.adj, d.disk⟩ ∧
    (matrices pinned opt c taus d.disk).log = [] := by
  have htau : ∀ r tau, tauStep pinned opt c r tau = r := by
    intro r tau
    unfold tauStep
    unfold interStep
    cases he : opt.use .expm with
    | true => simp [pinned_inter]
    | false =>
      have hl : opt.use .lin = true := by rcases hu with h | h; · rw [he] at h; simp at h
                                          · exact h
      simp [hl, pinned_inter, Laps.interStep, he]
  have hfold : ∀ (l : List τ) (r : Run L V), l.foldl (tauStep pinned opt c) r = r := by
    intro l
    induction l with
    | nil => intro r; rfl
    | cons t l ih => intro r; rw [List.foldl_cons, htau, ih]
  have hmat : matrices pinned opt c taus d.disk = ⟨d.disk, []⟩ := by
    unfold matrices
    rw [hfold]
    simp
  refine ⟨?_, by rw [hmat]⟩
  have hadj : accepted (sig .staticAdj) pinned.adj = true := by decide +kernel
  unfold worker
  rw [hmat, hadj]
  split <;> simp_all

theorem slices_all (p : Prog) (opt : Opt) (c : Calc τ L V) (tau : τ) (m : Kind → Option V)
    (h : ∀ k, accepted (sig (transFn k)) (p.trans k) = true) (l : List (Kind × Bool)) (r : Run L V) :
    slices p opt c tau m l r = l.foldl (fun r q => Laps.sliceStep opt c tau q.1 q.2 (m q.1) r) r := by
  induction l generalizing r with
  | nil => rfl
  | cons q l ih =>
    obtain ⟨k, rev⟩ := q
    rw [slices.eq_2]
    unfold sliceStep
    rw [if_neg (by rw [h k]; simp)]
    simp only [List.foldl_cons]
    exact ih _

/-- A script whose calls are accepted behaves as in `Verif.Laps.Model`. -/
theorem accepted_worker (p : Prog) (opt : Opt) (c : Calc τ L V) (taus : List τ) (d : Disk L V)
    (hi : ∀ k, accepted (sig (interFn k)) (p.inter k) = true)
    (ht : ∀ k, accepted (sig (transFn k)) (p.trans k) = true) :
    matrices p opt c taus d = Laps.worker opt c taus d := by
  have hinter : ∀ tau k (r : Run L V), interStep p opt c tau k r = Laps.interStep opt c tau k r := by
    intro tau k r
    unfold interStep
    rw [if_neg (by rw [hi k]; simp)]
  have htau : tauStep p opt c = Laps.tauStep opt c := by
    funext r tau
    unfold tauStep Laps.tauStep
    rw [hinter]
    cases Laps.interStep opt c tau .expm r with
    | error r => rfl
    | ok x =>
      obtain ⟨r, e⟩ := x
      simp only
      rw [hinter]
      cases Laps.interStep opt c tau .lin r with
      | error r => rfl
      | ok y =>
        obtain ⟨r, l⟩ := y
        simp only
        rw [slices_all p opt c tau _ ht]
        rfl
  unfold matrices Laps.worker
  rw [htau]

/-- The calls without `verbose`. -/
def withoutVerbose (p : Prog) : Prog := ⟨p.adj, fun k => ⟨(p.inter k).args, (p.inter k).kws.erase "verbose"⟩,
  fun k => ⟨(p.trans k).args, (p.trans k).kws.erase "verbose"⟩⟩

/-- **C138, the only cause.** If `verbose` is dropped from these calls, then, after any history of
runs that were stopped, a run leaves every requested file behind, whole, of every waiting time whose
matrices can be computed. -/
theorem C138_without_verbose (saveAdj : Bool) (A : V) (opt : Opt) (c : Calc τ L V) (taus : List τ)
    (hd : ∀ a ∈ taus, ∀ b ∈ taus, c.label a = c.label b → a = b) (d : Files L V)
    (h : Laps.Stopped opt c taus d.disk) (tau : τ) (ht : tau ∈ taus)
    (hc : ∀ k, opt.use k = true → (c.inter k tau).isSome) (w : What) (hw : Requested opt w) :
    ∃ d', worker (withoutVerbose pinned) saveAdj A opt c taus d = some d' ∧
      ∃ x, d'.disk (c.label tau, w) = some (.whole x) := by
  have hm : matrices (withoutVerbose pinned) opt c taus d.disk = Laps.worker opt c taus d.disk :=
    accepted_worker _ _ _ _ _ (by intro k; cases k <;> decide +kernel) (by intro k; cases k <;> decide +kernel)
  obtain ⟨x, hx, _⟩ := Laps.C80_resumed_partial opt c taus hd d.disk h tau ht hc w hw
  have hadj : accepted (sig .staticAdj) (withoutVerbose pinned).adj = true := by decide +kernel
  unfold worker
  rw [hm, hadj]
  split
  · exact ⟨_, rfl, x, hx⟩
  · exact ⟨_, rfl, x, hx⟩

open Verif.MatFiles in
/-- Options that ask for files, none of which the script writes. -/
example : (∃ w, Requested Laps.exO w) ∧ Laps.exO.use .expm = true ∧
    (worker pinned true exA Laps.exO Laps.exC [()] ⟨none, Laps.empty⟩).map Files.adj =
      some (some (.whole exA)) :=
  ⟨⟨.inter .lin, rfl, rfl⟩, rfl, by
    rw [(C138_nothing_violated true exA Laps.exO (.inl rfl) Laps.exC [()] ⟨none, Laps.empty⟩).1]; rfl⟩

end Verif.Calls
