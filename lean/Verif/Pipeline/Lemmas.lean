import Verif.Pipeline.Model
import Verif.Pipeline.Spec
import Verif.Laps.Props
import Verif.Scripts.Slices
import Verif.Scripts.Load
import Verif.EndToEnd.Lemmas

/-!
# C140: lemmas
-/

set_option linter.dupNamespace false
set_option linter.unusedSectionVars false

namespace Verif.Pipeline

open Verif.Trans Verif.TempNet Verif.Flow Verif.EndToEnd
open Verif.Scripts (Kind File Slice sliceSteps stepAt sliceSteps_eq resolves_unique)

/-! ## What is computed -/

section
variable {K : Type} [Field K] [LinearOrder K] [IsStrictOrderedRing K]

theorem run_slice {env : Env K} {a b : K} {Lp : TempNet.Laps K}
    (hL : computeLaplacians env.n env.events env.startFirst (some a) (some b) = .ok Lp) (lamda : K) :
    run env [.laplacians (some a) (some b), .inter lamda false none none] =
      .ok ⟨some Lp, [(lamda, interMats env.n env.E (timesOf env.events) Lp lamda false)], []⟩ := by
  simp [run, State.step, State.laplacians, State.inter, State.ensureLaps, State.fresh, hL, List.foldlM, bind, Except.bind,
    pure, Except.pure]

theorem slice_inter {Λ : Type} {env : Env K} {label : K → Λ} {a b : K} {Lp : TempNet.Laps K}
    (hL : computeLaplacians env.n env.events env.startFirst (some a) (some b) = .ok Lp) (tau : K) :
    (sliceCalc env label a b).inter .expm tau =
      some (.inter (interMats env.n env.E (timesOf env.events) Lp (1 / tau) false)
        (((timesOf env.events).take (Lp.kStop + 1)).drop Lp.kStart) Lp.tStart Lp.tStop) := by
  unfold sliceCalc
  simp only [run_slice hL]
  simp

theorem steps_sum (env : Env K) (lamda : K) (k : Nat) : ∀ n : Nat,
    (((List.range' k n).map (stepAt env lamda)).map (·.2)).sum =
      (timesOf env.events).getD (k + n) 0 - (timesOf env.events).getD k 0
  | 0 => by simp
  | n + 1 => by
    rw [List.range'_concat, List.map_append, List.map_append, List.sum_append, steps_sum env lamda k n]
    simp only [List.map_cons, List.map_nil, List.sum_cons, List.sum_nil, stepAt, Nat.one_mul, Nat.add_assoc]
    ring

/-- The window of the Laplacians. -/
theorem laps_window {env : Env K} (h : Proper env.n env.events) (hne : env.events ≠ []) (a b : K) :
    ∃ Lp, computeLaplacians env.n env.events env.startFirst (some a) (some b) = .ok Lp ∧
      Resolves (timesOf env.events) Lp.kStart 0 (some a) ∧ Resolves (timesOf env.events) Lp.kStop 0 (some b) ∧
      Lp.tStart = (timesOf env.events).getD Lp.kStart 0 ∧ Lp.tStop = (timesOf env.events).getD Lp.kStop 0 := by
  obtain ⟨Lp, hL, hk, hm, -⟩ := C33_active_contacts_partial h hne env.startFirst (some a) (some b)
  obtain ⟨k, m, hk', hm', s, -, -, -, he⟩ := computeLaplacians_eq h.inRange h.noLoops hne env.startFirst (some a) (some b)
  refine ⟨Lp, hL, hk, hm, ?_⟩
  rw [hL] at he
  split at he
  · simp at he
  · injection he with he
    subst he
    simp only [List.getD_eq_getElem?_getD, List.getElem?_eq_getElem hk', List.getElem?_eq_getElem hm', Option.getD_some,
      and_self]

/-- The pairs that are read backward are those that are read forward, from the end. -/
theorem pairs_reverse {ms : List (Mat K)} {times : List K} (h : ms.length = times.length - 1 ∨ times.length ≤ 1) :
    pairs true ms times = (pairs false ms times).reverse := by
  have hg : ((gaps times.reverse).map fun x => -x) = (gaps times).reverse := by
    apply List.ext_getElem
    · simp [Flow.gaps_length]
    · intro i h1 h2
      simp only [List.length_map, List.length_reverse, Flow.gaps_length] at h1 h2
      have e1 := Flow.gaps_getD times.reverse i (by simp; omega)
      have e2 := Flow.gaps_getD times (times.length - 1 - 1 - i) (by omega)
      rw [List.getD_eq_getElem?_getD, List.getElem?_eq_getElem (by rw [Flow.gaps_length, List.length_reverse]; omega),
        Option.getD_some] at e1
      rw [List.getD_eq_getElem?_getD, List.getElem?_eq_getElem (by rw [Flow.gaps_length]; omega), Option.getD_some] at e2
      rw [List.getElem_map, List.getElem_reverse]
      simp only [Flow.gaps_length]
      rw [e1, e2]
      simp only [List.getD_eq_getElem?_getD]
      rw [List.getElem?_reverse (by omega), List.getElem?_reverse (by omega)]
      have a1 : times.length - 1 - (i + 1) = times.length - 1 - 1 - i := by omega
      have a2 : times.length - 1 - 1 - i + 1 = times.length - 1 - i := by omega
      rw [a1, a2]
      ring
  unfold pairs
  simp only [if_true, Bool.false_eq_true, if_false]
  rw [hg]
  rcases h with h | h
  · exact (List.reverse_zipWith (f := Prod.mk) (by rw [h, Flow.gaps_length])).symm
  · have : gaps times = [] := List.length_eq_zero_iff.1 (by rw [Flow.gaps_length]; omega)
    rw [this]
    simp

end

/-! ## The files of a slice -/

theorem mats_length {env : Env ℝ} {Lp : TempNet.Laps ℝ} (hm : Lp.kStop < (timesOf env.events).length) (lamda : ℝ) :
    (interMats env.n env.E (timesOf env.events) Lp lamda false).length = Lp.kStop - Lp.kStart ∨
    (Lp.kStop - Lp.kStart = 0 ∧ interMats env.n env.E (timesOf env.events) Lp lamda false = [eye]) := by
  unfold interMats
  dsimp only
  split
  · rename_i h
    right
    simp at h
    exact ⟨by omega, rfl⟩
  · left
    simp
    omega

theorem cumulative_prod {n : Nat} {ms : List (Mat ℝ)} (hne : ms ≠ []) (h : ∀ A ∈ ms, Stoch n A) (reverse : Bool) :
    EqOn n (cumulativeLast n reverse none ms) (prod n (if reverse then ms.reverse else ms)) := by
  obtain ⟨hl, hk⟩ := C38_products hne h reverse
  have h1 := C38_last_only n ms hne reverse none
  have hpos : 0 < ms.length := List.length_pos_of_ne_nil hne
  rw [List.getLast?_eq_getElem?, List.getElem?_eq_getElem (by omega), Option.some.injEq] at h1
  have h2 := (hk ((cumulative n reverse none ms).length - 1) (by omega)).1
  rw [h1] at h2
  have : (if reverse then ms.reverse else ms).take ((cumulative n reverse none ms).length - 1 + 1) =
      if reverse then ms.reverse else ms := by
    apply List.take_of_length_le
    cases reverse <;> simp <;> omega
  rw [this] at h2
  exact h2

/-- After any number of runs that were stopped, one more run leaves files for the slice from which
the second tool reads what it needs. -/
theorem slice_read {Λ : Type} [DecidableEq Λ] {env : Env ℝ} (hE : env.E = expm env.n) (h : Proper env.n env.events)
    (hne : env.events ≠ []) (label : ℝ → Λ) (a b : ℝ) (opt : Laps.Opt) (hu : opt.use .expm = true)
    (hu' : opt.use .lin = false) (hi : opt.saveInter = true) (hs : opt.slices = true) (taus : List ℝ)
    (hl : ∀ x ∈ taus, ∀ y ∈ taus, label x = label y → x = y) (d : Laps.Disk Λ (Held ℝ))
    (hd : Laps.Stopped opt (sliceCalc env label a b) taus d) (tau : ℝ) (ht : tau ∈ taus) (hp : 0 < tau) :
    ∃ s k m, readSlice (Laps.worker opt (sliceCalc env label a b) taus d).disk (label tau) = some s ∧
      s.Sound env.n ∧ Resolves (timesOf env.events) k 0 (some a) ∧ Resolves (timesOf env.events) m 0 (some b) ∧
      s.inter = (List.range' k (m - k)).map (stepAt env (1 / tau)) ∧
      s.span = |(timesOf env.events).getD m 0 - (timesOf env.events).getD k 0| := by
  obtain ⟨Lp, hL, hk, hm, e1, e2⟩ := laps_window h hne a b
  have hin := slice_inter (label := label) hL tau
  have hc : ∀ k, opt.use k = true → ((sliceCalc env label a b).inter k tau).isSome := by
    intro k hk
    cases k with
    | expm => rw [hin]; rfl
    | lin => rw [hu'] at hk; simp at hk
  have files := Laps.C80_resumed_partial opt (sliceCalc env label a b) taus hl d hd tau ht hc
  obtain ⟨x1, f1, c1⟩ := files (.inter .expm) ⟨hu, hi⟩
  obtain ⟨x2, f2, c2⟩ := files (.slice .expm false) ⟨hu, hs⟩
  obtain ⟨x3, f3, c3⟩ := files (.slice .expm true) ⟨hu, hs⟩
  have g1 : x1 = .inter (interMats env.n env.E (timesOf env.events) Lp (1 / tau) false)
      (((timesOf env.events).take (Lp.kStop + 1)).drop Lp.kStart) Lp.tStart Lp.tStop := by
    rcases c1 with ⟨v, hv, hx⟩ | ⟨-, -, v, hv, hx⟩ <;> (rw [hin] at hv; injection hv with hv; subst hv; exact hx)
  have g2 : ∀ rev x, (Laps.Content (sliceCalc env label a b) false tau (.slice .expm rev) x ∨ (opt.inPlace = true ∧ opt.saveInter = true ∧
      Laps.Content (sliceCalc env label a b) true tau (.slice .expm rev) x)) → x = .trans (cumulativeLast env.n rev none
        (interMats env.n env.E (timesOf env.events) Lp (1 / tau) false)) Lp.tStart Lp.tStop := by
    intro rev x hx
    rcases hx with ⟨v, hv, hx⟩ | ⟨-, -, v, hv, hx⟩ <;> (rw [hin] at hv; injection hv with hv; subst hv; exact hx)
  have g3 := g2 _ _ c2
  have g4 := g2 _ _ c3
  have hst : ∀ M ∈ interMats env.n env.E (timesOf env.events) Lp (1 / tau) false, Stoch env.n M := by
    obtain ⟨L3, hL3, hst⟩ := C34_transition_stochastic h.inRange h.noLoops hne env.startFirst (some a) (some b)
    rw [hL] at hL3
    cases hL3
    rw [hE]
    exact (hst (1 / tau) false (by positivity)).2
  have hsteps : pairs false (interMats env.n env.E (timesOf env.events) Lp (1 / tau) false)
      (((timesOf env.events).take (Lp.kStop + 1)).drop Lp.kStart) =
      (List.range' Lp.kStart (Lp.kStop - Lp.kStart)).map (stepAt env (1 / tau)) := by
    have hsorted : (timesOf env.events).Pairwise (· < ·) := uniqueSorted_lt _
    obtain ⟨k, m, r1, r2, -, he⟩ := sliceSteps_eq env h hne (1 / tau) (some a) (some b)
    have : k = Lp.kStart := Nat.le_antisymm (resolves_unique hsorted r1 hk le_rfl) (resolves_unique hsorted hk r1 le_rfl)
    subst this
    have : m = Lp.kStop := Nat.le_antisymm (resolves_unique hsorted r2 hm le_rfl) (resolves_unique hsorted hm r2 le_rfl)
    subst this
    unfold sliceSteps at he
    rw [hL] at he
    injection he
  have hm' : Lp.kStop < (timesOf env.events).length := hm.1
  have hnemats : interMats env.n env.E (timesOf env.events) Lp (1 / tau) false ≠ [] := by
    unfold interMats
    dsimp only
    split
    · simp
    · rename_i hh
      intro hc
      rw [hc] at hh
      exact hh rfl
  refine ⟨⟨pairs false (interMats env.n env.E (timesOf env.events) Lp (1 / tau) false)
      (((timesOf env.events).take (Lp.kStop + 1)).drop Lp.kStart), |Lp.tStop - Lp.tStart|,
      cumulativeLast env.n false none (interMats env.n env.E (timesOf env.events) Lp (1 / tau) false),
      cumulativeLast env.n true none (interMats env.n env.E (timesOf env.events) Lp (1 / tau) false)⟩,
    Lp.kStart, Lp.kStop, ?_, ?_, hk, hm, hsteps, by rw [e1, e2]⟩
  · unfold readSlice
    have q1 : (sliceCalc env label a b).label tau = label tau := rfl
    rw [q1] at f1 f2 f3
    rw [f1, f2, f3, g3, g4, g1]
  · have hfst : EqOn env.n (prod env.n (interMats env.n env.E (timesOf env.events) Lp (1 / tau) false))
        (prod env.n ((pairs false (interMats env.n env.E (timesOf env.events) Lp (1 / tau) false)
      (((timesOf env.events).take (Lp.kStop + 1)).drop Lp.kStart)).map (·.1))) ∧
      EqOn env.n (prod env.n (interMats env.n env.E (timesOf env.events) Lp (1 / tau) false).reverse)
        (prod env.n ((pairs false (interMats env.n env.E (timesOf env.events) Lp (1 / tau) false)
      (((timesOf env.events).take (Lp.kStop + 1)).drop Lp.kStart)).reverse.map (·.1))) := by
      rcases mats_length hm' (1 / tau) with hlen | ⟨h0, hlen⟩
      · have : (pairs false (interMats env.n env.E (timesOf env.events) Lp (1 / tau) false)
            (((timesOf env.events).take (Lp.kStop + 1)).drop Lp.kStart)).map (·.1) =
            interMats env.n env.E (timesOf env.events) Lp (1 / tau) false := by
          unfold pairs
          rw [if_neg (by simp)]
          apply List.map_fst_zip
          rw [hlen, Flow.gaps_length]
          simp
          omega
        rw [List.map_reverse, this]
        exact ⟨fun _ _ _ _ => rfl, fun _ _ _ _ => rfl⟩
      · rw [hsteps, h0, hlen]
        simp only [List.range'_zero, List.map_nil, List.reverse_nil, List.reverse_singleton, prod]
        exact ⟨mul_eye _, mul_eye _⟩
    refine ⟨fun e he => ?_, ?_, ?_⟩
    · obtain ⟨x, y⟩ := e
      exact hst _ (by
        unfold pairs at he
        rw [if_neg (by simp)] at he
        exact (List.of_mem_zip he).1)
    · intro i hi j hj
      exact (cumulative_prod hnemats hst false i hi j hj).trans (hfst.1 i hi j hj)
    · intro i hi j hj
      exact (cumulative_prod hnemats hst true i hi j hj).trans (hfst.2 i hi j hj)

/-! ## The slices together -/

theorem steps_concat {K : Type} (slices : Nat → Option (Slice K)) (κ : Nat → Nat) (f : Nat → Mat K × K) (a : Nat) :
    ∀ c, (∀ k, a ≤ k → k < a + c → κ k ≤ κ (k + 1) ∧ ∃ s, slices k = some s ∧
        s.inter = (List.range' (κ k) (κ (k + 1) - κ k)).map f) →
      κ a ≤ κ (a + c) ∧ (List.range' a c).flatMap (fun k => ((slices k).map Slice.inter).getD []) =
        (List.range' (κ a) (κ (a + c) - κ a)).map f
  | 0, _ => by simp
  | c + 1, h => by
    obtain ⟨h1, h2⟩ := steps_concat slices κ f a c (fun k hk hc => h k hk (by omega))
    obtain ⟨h3, s, h4, h5⟩ := h (a + c) (by omega) (by omega)
    refine ⟨by rw [← Nat.add_assoc]; omega, ?_⟩
    rw [List.range'_concat, List.flatMap_append, h2]
    simp only [List.flatMap_cons, List.flatMap_nil, List.append_nil, Nat.one_mul, h4, Option.map_some, Option.getD_some, h5]
    rw [← List.map_append]
    congr 1
    have e : κ (a + c) = κ a + 1 * (κ (a + c) - κ a) := by omega
    conv_lhs => rw [e]
    simp only [Nat.one_mul, Nat.add_sub_cancel_left]
    rw [show κ a + (κ (a + c) - κ a) = κ a + 1 * (κ (a + c) - κ a) by omega, List.range'_append]
    congr 1
    rw [show a + (c + 1) = a + c + 1 from rfl]
    omega

/-- The steps of the flow, in the two vocabularies. -/
theorem flow_steps (env : Env ℝ) (lamda : ℝ) (reverse : Bool) (a b : Nat) (hb : b < (timesOf env.events).length) :
    Scripts.Load.flowOf env.n (if reverse then ((List.range' a (b - a)).map (stepAt env lamda)).reverse
        else (List.range' a (b - a)).map (stepAt env lamda)) =
      flowSteps env.n reverse ((List.range' a (b - a)).map fun k => (stepAt env lamda k).1)
        (((timesOf env.events).take (b + 1)).drop a) (b - a) := by
  have hts : ∀ i, i ≤ b - a → a ≤ b → (((timesOf env.events).take (b + 1)).drop a).getD i 0 =
      (timesOf env.events).getD (a + i) 0 := by
    intro i hi hab
    rw [List.getD_eq_getElem?_getD, List.getD_eq_getElem?_getD, List.getElem?_drop, List.getElem?_take_of_lt (by omega)]
  have hmap : ((List.range' a (b - a)).map (stepAt env lamda)).map (·.1) =
      (List.range' a (b - a)).map fun k => (stepAt env lamda k).1 := by
    rw [List.map_map]; rfl
  unfold Scripts.Load.flowOf flowSteps
  cases reverse with
  | false =>
    simp only [Bool.false_eq_true, if_false, List.length_map, List.length_range']
    apply List.map_congr_left
    intro m hm
    rw [List.mem_range] at hm
    rw [hts _ (by omega) (by omega), hts _ (by omega) (by omega), ← hmap, List.map_take]
    congr 1
    rw [List.getD_eq_getElem?_getD, List.getElem?_map, List.getElem?_range' (by omega)]
    simp only [Option.map_some, Option.getD_some, stepAt, Nat.one_mul, Nat.add_assoc]
  | true =>
    simp only [if_true, List.length_map, List.length_range', List.length_reverse]
    apply List.map_congr_left
    intro m hm
    rw [List.mem_range] at hm
    rw [hts _ (by omega) (by omega), hts _ (by omega) (by omega), ← hmap, List.map_take, List.map_reverse]
    congr 1
    rw [List.getD_eq_getElem?_getD, List.getElem?_reverse (by simpa using hm), List.getElem?_map,
      List.getElem?_range' (by simp; omega)]
    simp only [Option.map_some, Option.getD_some, stepAt, Nat.one_mul, List.length_map, List.length_range']
    congr 2 <;> omega

end Verif.Pipeline
