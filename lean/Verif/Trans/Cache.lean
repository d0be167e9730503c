import Verif.Trans.Props

/-!
# Caching of transition matrices: properties C37 and C58
-/

set_option linter.dupNamespace false
set_option linter.unusedSectionVars false
set_option linter.unusedSimpArgs false

namespace Verif.Trans

open Verif.TempNet Finset

variable {K : Type} [Field K] [LinearOrder K] [IsStrictOrderedRing K]

theorem lookup_setKey {V : Type} (d : List (K × V)) (k : K) (v : V) (k' : K) :
    (setKey d k v).lookup k' = if k' = k then (d.lookup k').map (fun _ => v) else d.lookup k' := by
  induction d with
  | nil => simp [setKey]
  | cons p d ih =>
    have ih' : List.lookup k' (List.map (fun p => if p.1 = k then (p.1, v) else p) d) =
      if k' = k then (List.lookup k' d).map (fun _ => v) else List.lookup k' d := ih
    obtain ⟨a, b⟩ := p
    simp only [setKey, List.map_cons]
    by_cases ha : a = k
    · simp only [ha, if_true, List.lookup_cons]
      by_cases hk : k' = k
      · simp [hk]
      · have : (k' == k) = false := by simpa using hk
        simp only [this, if_neg hk]
        rw [ih', if_neg hk]
    · simp only [if_neg ha, List.lookup_cons]
      by_cases hk : k' = a
      · have hk2 : k' ≠ k := by rw [hk]; exact ha
        simp [hk, ha]
      · have : (k' == a) = false := by simpa using hk
        simp only [this]
        exact ih'

theorem map_clean_none (n : Nat) (ms : List (Mat K)) : ms.map (clean n none) = ms := by
  have : (clean n none : Mat K → Mat K) = id := rfl
  rw [this, List.map_id]

/-! ## C58 -/

/-- **C58** (first half): without tolerance, computing the cumulative matrices leaves all
inter-event matrices and the Laplacians as they were. -/
theorem C58_without_tolerance_partial {env : Env K} {s s' : State K} {lamda : K} {reverse save : Bool}
    (h : s.trans env lamda reverse none save = .ok s') :
    s'.laps = s.laps ∧ ∀ l, s'.interT.lookup l = s.interT.lookup l := by
  unfold State.trans at h
  split at h
  · cases h
  · rename_i ms hms
    split at h
    · cases h; exact ⟨rfl, fun _ => rfl⟩
    · cases h
      refine ⟨rfl, fun l => ?_⟩
      simp only [lookup_setKey, map_clean_none]
      split
      · rename_i hl
        rw [hl, hms]; rfl
      · rfl

/-- **C58** (second half): with a tolerance the inter-event matrices of the rate are replaced
by rounded and renormalised ones, those of other rates are kept. -/
theorem C58_with_tolerance {env : Env K} {s s' : State K} {lamda tol : K} {reverse save : Bool}
    {ms : List (Mat K)} (hms : s.interT.lookup lamda = some ms) (hT : s.T.lookup lamda = none)
    (h : s.trans env lamda reverse (some tol) save = .ok s') :
    (∃ ms', s'.interT.lookup lamda = some ms' ∧ List.Forall₂ (Rounded env.n tol) ms ms') ∧
    ∀ l, l ≠ lamda → s'.interT.lookup l = s.interT.lookup l := by
  unfold State.trans at h
  simp only [hms, hT] at h
  cases h
  refine ⟨?_, fun l hl => ?_⟩
  · refine ⟨ms.map (clean env.n (some tol)), ?_, ?_⟩
    · simp only [lookup_setKey, hms, if_true]
      rfl
    · rw [List.forall₂_map_right_iff, List.forall₂_same]
      exact fun A _ => clean_rounded env.n tol A
  · simp only [lookup_setKey, if_neg hl]

/-- A matrix with a very small entry in place of an exponential. -/
def smallE : Mat ℚ → Mat ℚ := fun _ i j =>
  if i = j then 1 - 1 / 1000000000 else 1 / 1000000000

/-- Two nodes in contact during `[0,1)` and `[2,3)`. -/
def exEvents : List (Event Nat ℚ) := [⟨0, 1, 0, 1⟩, ⟨0, 1, 2, 3⟩]

/-- **C58** is violated: the inter-event matrices a user gets after computing the cumulative
matrices with a tolerance are not the ones computed before. -/
theorem C58_tolerance_violated : ∃ (env : Env ℚ) (ops : List (Op ℚ)) (l tol : ℚ) (s s' : State ℚ)
    (ms ms' : List (Mat ℚ)), run env ops = .ok s ∧ run env (ops ++ [.trans l false (some tol) true]) = .ok s' ∧
      s.interT.lookup l = some ms ∧ s'.interT.lookup l = some ms' ∧
      (∀ A ∈ ms, Stoch env.n A) ∧ ∃ (k : Nat) (A A' : Mat ℚ), ms[k]? = some A ∧ ms'[k]? = some A' ∧
        ¬ EqOn env.n A A' := by
  let env : Env ℚ := ⟨2, exEvents, fun _ => true, smallE⟩
  let ops : List (Op ℚ) := [.inter 1 false none none]
  have h : (match run env ops, run env (ops ++ [.trans 1 false (some (1 / 100000000)) true]) with
    | .ok s, .ok s' =>
      match s.interT.lookup 1, s'.interT.lookup 1 with
      | some ms, some ms' =>
        (ms.all fun A => decide (0 ≤ A 0 0 ∧ 0 ≤ A 0 1 ∧ 0 ≤ A 1 0 ∧ 0 ≤ A 1 1 ∧ A 0 0 + A 0 1 = 1 ∧
          A 1 0 + A 1 1 = 1)) &&
        (match ms[0]?, ms'[0]? with
        | some A, some A' => decide (A 0 1 ≠ A' 0 1)
        | _, _ => false)
      | _, _ => false
    | _, _ => false) = true := by decide +kernel
  cases h1 : run env ops with
  | error e => rw [h1] at h; simp at h
  | ok s =>
    cases h2 : run env (ops ++ [.trans 1 false (some (1 / 100000000)) true]) with
    | error e => rw [h1, h2] at h; simp at h
    | ok s' =>
      rw [h1, h2] at h
      simp only at h
      cases h3 : s.interT.lookup 1 with
      | none => rw [h3] at h; simp at h
      | some ms =>
        cases h4 : s'.interT.lookup 1 with
        | none => rw [h3, h4] at h; simp at h
        | some ms' =>
          rw [h3, h4] at h
          simp only [Bool.and_eq_true, List.all_eq_true, decide_eq_true_eq] at h
          obtain ⟨h5, h6⟩ := h
          have h5' : ∀ A ∈ ms, Stoch env.n A := by
            intro A hA i hi
            obtain ⟨a, b, c, d, e, f⟩ := h5 A hA
            have hi' : i < 2 := hi
            have hs : ∀ g : Nat → ℚ, ∑ j ∈ range env.n, g j = g 0 + g 1 := fun g => by
              show ∑ j ∈ range 2, g j = _
              simp [Finset.sum_range_succ]
            refine ⟨fun j hj => ?_, ?_⟩
            · have hj' : j < 2 := hj
              interval_cases i <;> interval_cases j <;> assumption
            · rw [hs]
              interval_cases i <;> assumption
          refine ⟨env, ops, 1, 1 / 100000000, s, s', ms, ms', h1, h2, h3, h4, h5', 0, ?_⟩
          cases h7 : ms[0]? with
          | none => rw [h7] at h6; simp at h6
          | some A =>
            cases h8 : ms'[0]? with
            | none => rw [h7, h8] at h6; simp at h6
            | some A' =>
              rw [h7, h8] at h6
              simp only [decide_eq_true_eq] at h6
              exact ⟨A, A', rfl, rfl, fun hc => h6 (hc 0 (by decide) 1 (by decide))⟩

/-! ## C37 -/

/-- Calls that only compute Laplacians. -/
def OnlyLaplacians (ops : List (Op K)) : Prop := ∀ op ∈ ops, ∃ a b, op = .laplacians a b

/-- Calls for transition matrices that always use the same options for the same rate, and no
tolerance. -/
def SameOptions (fix : Bool) (rev save : K → Bool) (ops : List (Op K)) : Prop :=
  ∀ op ∈ ops, (∃ l a b, op = .inter l fix a b) ∨ ∃ l, op = .trans l (rev l) none (save l)

/-- The matrices a user expects for the Laplacians `L`. -/
def expectedT (env : Env K) (L : Laps K) (fix : Bool) (rev save : K → Bool) (l : K) : TVal K :=
  let ms := interMats env.n env.E (timesOf env.events) L l fix
  if save l then .list (cumulative env.n (rev l) none ms) else .last (cumulativeLast env.n (rev l) none ms)

/-- All cached matrices are those of the Laplacians held. -/
def Current (env : Env K) (fix : Bool) (rev save : K → Bool) (s : State K) : Prop :=
  (∀ l ms, s.interT.lookup l = some ms → ∃ L, s.laps = some L ∧
    ms = interMats env.n env.E (timesOf env.events) L l fix) ∧
  (∀ l v, s.T.lookup l = some v → ∃ L, s.laps = some L ∧ v = expectedT env L fix rev save l)

theorem step_current {env : Env K} {fix : Bool} {rev save : K → Bool} {s s' : State K} {op : Op K}
    (hop : (∃ l a b, op = .inter l fix a b) ∨ ∃ l, op = .trans l (rev l) none (save l))
    (hs : Current env fix rev save s) (h : s.step env op = .ok s') :
    Current env fix rev save s' ∧ (∀ L, s.laps = some L → s'.laps = some L) ∧
    (∀ l, (s.interT.lookup l).isSome → (s'.interT.lookup l).isSome) ∧
    (∀ l, (s.T.lookup l).isSome → (s'.T.lookup l).isSome) ∧
    (∀ l a b, op = .inter l fix a b → (s'.interT.lookup l).isSome) ∧
    (∀ l r t v, op = .trans l r t v → (s'.T.lookup l).isSome) := by
  rcases hop with ⟨l, a, b, rfl⟩ | ⟨l, rfl⟩
  · simp only [State.step, State.inter] at h
    split at h
    · cases h
    · rename_i s1 L hL
      have h1 : s1.laps = some L ∧ s1.interT = s.interT ∧ s1.T = s.T ∧
          (∀ L', s.laps = some L' → s1.laps = some L') := by
        unfold State.ensureLaps at hL
        split at hL
        · rename_i L' hL'
          cases hL
          exact ⟨hL', rfl, rfl, fun _ h => h⟩
        · rename_i hn
          split at hL
          · cases hL
          · cases hL
            refine ⟨rfl, rfl, rfl, fun L' h => ?_⟩
            rw [hn] at h; cases h
      obtain ⟨e1, e2, e3, e4⟩ := h1
      have hcur : Current env fix rev save s1 := by
        constructor
        · intro l' ms hms
          rw [e2] at hms
          obtain ⟨L', h1, h2⟩ := hs.1 l' ms hms
          exact ⟨L', e4 L' h1, h2⟩
        · intro l' v hv
          rw [e3] at hv
          obtain ⟨L', h1, h2⟩ := hs.2 l' v hv
          exact ⟨L', e4 L' h1, h2⟩
      split at h
      · rename_i ms hms
        cases h
        refine ⟨hcur, e4, fun l' h => by rw [e2]; exact h, fun l' h => by rw [e3]; exact h, ?_, ?_⟩
        · intro l' a' b' h
          cases h
          rw [hms]; rfl
        · intro l' r t v h; cases h
      · rename_i hms
        cases h
        refine ⟨⟨?_, ?_⟩, e4, ?_, ?_, ?_, ?_⟩
        · intro l' ms' h'
          simp only [List.lookup_cons] at h'
          split at h'
          · rename_i hl
            have hl' : l' = l := by simpa using hl
            cases h'
            exact ⟨L, e1, by rw [hl']⟩
          · exact hcur.1 l' ms' h'
        · intro l' v hv
          exact hcur.2 l' v hv
        · intro l' h'
          simp only [List.lookup_cons]
          split
          · rfl
          · rw [e2]; exact h'
        · intro l' h'
          show (s1.T.lookup l').isSome
          rw [e3]; exact h'
        · intro l' a' b' h'
          cases h'
          simp
        · intro l' r t v h'; cases h'
  · simp only [State.step] at h
    have h58 := C58_without_tolerance_partial h
    unfold State.trans at h
    split at h
    · cases h
    · rename_i ms hms
      obtain ⟨L, hL, hmsL⟩ := hs.1 l ms hms
      split at h
      · rename_i v hv
        cases h
        refine ⟨hs, fun _ h => h, fun _ h => h, fun _ h => h, ?_, ?_⟩
        · intro _ _ _ h; cases h
        · intro l' r t v' h
          cases h
          rw [hv]; rfl
      · rename_i hv
        cases h
        refine ⟨⟨?_, ?_⟩, fun _ h => h, ?_, ?_, ?_, ?_⟩
        · intro l' ms' h'
          rw [h58.2 l'] at h'
          exact hs.1 l' ms' h'
        · intro l' v' h'
          simp only [List.lookup_cons] at h'
          split at h'
          · rename_i hl
            have hl' : l' = l := by simpa using hl
            cases h'
            refine ⟨L, hL, ?_⟩
            rw [hl', hmsL]
            rfl
          · exact hs.2 l' v' h'
        · intro l' h'
          rw [h58.2 l']; exact h'
        · intro l' h'
          simp only [List.lookup_cons]
          split
          · rfl
          · exact h'
        · intro _ _ _ h; cases h
        · intro l' r t v' h'
          cases h'
          simp

theorem foldlM_current {env : Env K} {fix : Bool} {rev save : K → Bool} :
    ∀ (ops : List (Op K)) (s s' : State K), SameOptions fix rev save ops → Current env fix rev save s →
      ops.foldlM (State.step env) s = .ok s' →
      Current env fix rev save s' ∧ (∀ L, s.laps = some L → s'.laps = some L) ∧
      (∀ l, (s.interT.lookup l).isSome → (s'.interT.lookup l).isSome) ∧
      (∀ l, (s.T.lookup l).isSome → (s'.T.lookup l).isSome) ∧
      (∀ l a b, .inter l fix a b ∈ ops → (s'.interT.lookup l).isSome) ∧
      (∀ l r t v, .trans l r t v ∈ ops → (s'.T.lookup l).isSome)
  | [], s, s', _, hs, h => by
    cases h
    exact ⟨hs, fun _ h => h, fun _ h => h, fun _ h => h, by simp, by simp⟩
  | op :: ops, s, s', ho, hs, h => by
    simp only [List.foldlM_cons] at h
    cases h1 : s.step env op with
    | error e => rw [h1] at h; cases h
    | ok s1 =>
      rw [h1] at h
      have h' : ops.foldlM (State.step env) s1 = .ok s' := h
      obtain ⟨a1, a2, a3, a4, a5, a6⟩ := step_current (ho op (by simp)) hs h1
      obtain ⟨b1, b2, b3, b4, b5, b6⟩ := foldlM_current ops s1 s'
        (fun o ho' => ho o (by simp [ho'])) a1 h'
      refine ⟨b1, fun L hL => b2 L (a2 L hL), fun l hl => b3 l (a3 l hl), fun l hl => b4 l (a4 l hl), ?_, ?_⟩
      · intro l a b hm
        rcases List.mem_cons.1 hm with h | h
        · exact b3 l (a5 l a b h.symm)
        · exact b5 l a b h
      · intro l r t v hm
        rcases List.mem_cons.1 hm with h | h
        · exact b4 l (a6 l r t v h.symm)
        · exact b6 l r t v h

theorem foldlM_laplacians {env : Env K} : ∀ (ops : List (Op K)) (s s' : State K), OnlyLaplacians ops →
    ops.foldlM (State.step env) s = .ok s' →
    s'.interT = s.interT ∧ s'.T = s.T ∧ ((ops = [] ∧ s' = s) ∨
      ∃ a b L, ops.getLast? = some (.laplacians a b) ∧
        computeLaplacians env.n env.events env.startFirst a b = .ok L ∧ s'.laps = some L)
  | [], s, s', _, h => by cases h; exact ⟨rfl, rfl, .inl ⟨rfl, rfl⟩⟩
  | op :: ops, s, s', ho, h => by
    obtain ⟨a, b, rfl⟩ := ho op (by simp)
    simp only [List.foldlM_cons] at h
    cases h1 : s.step env (.laplacians a b) with
    | error e => rw [h1] at h; cases h
    | ok s1 =>
      rw [h1] at h
      have h' : ops.foldlM (State.step env) s1 = .ok s' := h
      obtain ⟨b1, b2, b3⟩ := foldlM_laplacians ops s1 s' (fun o ho' => ho o (by simp [ho'])) h'
      simp only [State.step, State.laplacians] at h1
      split at h1
      · cases h1
      · rename_i L hL
        cases h1
        refine ⟨b1, b2, .inr ?_⟩
        rcases b3 with ⟨rfl, rfl⟩ | ⟨a', b', L', c1, c2, c3⟩
        · exact ⟨a, b, L, rfl, hL, rfl⟩
        · refine ⟨a', b', L', ?_, c2, c3⟩
          rw [List.getLast?_cons, c1]; rfl

/-- **C37** for the histories in which it holds.  When the Laplacians are computed before any
transition matrix, and `fix_tau_k`, `reverse_time` and `save_intermediate` are always the same
for a rate, then after every history of calls the inter-event matrices of every rate are those
of the Laplacians held, the cumulative matrices are those of these inter-event matrices, every
requested rate is present, and the Laplacians held are those of the last window given.
Missing: the three kinds of histories below, for which the claim is false. -/
theorem C37_current_partial {env : Env K} {fix : Bool} {rev save : K → Bool} {pre post : List (Op K)}
    {s : State K} (hpre : OnlyLaplacians pre) (hpost : SameOptions fix rev save post)
    (h : run env (pre ++ post) = .ok s) :
    Current env fix rev save s ∧
    (∀ l a b, .inter l fix a b ∈ post → (s.interT.lookup l).isSome) ∧
    (∀ l r t v, .trans l r t v ∈ post → (s.T.lookup l).isSome) ∧
    (∀ a b, pre.getLast? = some (.laplacians a b) → ∃ L,
      computeLaplacians env.n env.events env.startFirst a b = .ok L ∧ s.laps = some L) := by
  unfold run at h
  rw [List.foldlM_append] at h
  cases h1 : pre.foldlM (State.step env) State.fresh with
  | error e => rw [h1] at h; cases h
  | ok s1 =>
    rw [h1] at h
    have h' : post.foldlM (State.step env) s1 = .ok s := h
    obtain ⟨a1, a2, a3⟩ := foldlM_laplacians pre _ _ hpre h1
    have hcur : Current env fix rev save s1 := by
      constructor
      · intro l ms hms
        rw [a1] at hms; simp [State.fresh] at hms
      · intro l v hv
        rw [a2] at hv; simp [State.fresh] at hv
    obtain ⟨b1, b2, b3, b4, b5, b6⟩ := foldlM_current post s1 s hpost hcur h'
    refine ⟨b1, b5, b6, ?_⟩
    intro a b hab
    rcases a3 with ⟨rfl, _⟩ | ⟨a', b', L, c1, c2, c3⟩
    · simp at hab
    · rw [c1] at hab
      cases hab
      exact ⟨L, c2, b2 L c3⟩

/-- A history of five calls that meets the hypotheses and succeeds. -/
example : ∃ (pre post : List (Op ℚ)) (s : State ℚ), OnlyLaplacians pre ∧
    SameOptions false (fun _ => true) (fun _ => true) post ∧ post.length = 4 ∧
    run ⟨2, exEvents, fun _ => true, smallE⟩ (pre ++ post) = .ok s := by
  let pre : List (Op ℚ) := [.laplacians (some 0) (some 2)]
  let post : List (Op ℚ) := [.inter 1 false none none, .trans 1 true none true, .inter 2 false none none,
    .trans 2 true none true]
  have h : (match run ⟨2, exEvents, fun _ => true, smallE⟩ (pre ++ post) with
    | .ok _ => true | .error _ => false) = true := by decide +kernel
  cases h1 : run ⟨2, exEvents, fun _ => true, smallE⟩ (pre ++ post) with
  | error e => rw [h1] at h; simp at h
  | ok s =>
    refine ⟨pre, post, s, ?_, ?_, rfl, h1⟩
    · intro op hop
      simp only [pre, List.mem_singleton] at hop
      exact ⟨_, _, hop⟩
    · intro op hop
      simp only [post, List.mem_cons, List.not_mem_nil, or_false] at hop
      rcases hop with h | h | h | h
      · exact .inl ⟨_, _, _, h⟩
      · exact .inr ⟨_, h⟩
      · exact .inl ⟨_, _, _, h⟩
      · exact .inr ⟨_, h⟩

/-- **C37** is violated whatever the exponential: after the Laplacians are recomputed for
another window, asking for the inter-event matrices of a known rate gives a list whose length
is not that of the Laplacians held. -/
theorem C37_window_violated (E : Mat ℚ → Mat ℚ) : ∃ (events : List (Event Nat ℚ)) (ops : List (Op ℚ))
    (s : State ℚ) (L : Laps ℚ) (ms : List (Mat ℚ)),
    run ⟨2, events, fun _ => true, E⟩ (ops ++ [.inter 1 false none none]) = .ok s ∧ s.laps = some L ∧
    s.interT.lookup 1 = some ms ∧ L.laplacians.length = 1 ∧ ms.length = 3 := by
  have h1 : (match computeLaplacians 2 exEvents (fun _ => true) none none with
    | .ok L => decide (L.kStart = 0 ∧ L.kStop = 3) | .error _ => false) = true := by decide +kernel
  have h2 : (match computeLaplacians 2 exEvents (fun _ => true) (some 2) (some 3) with
    | .ok L => decide (L.laplacians.length = 1) | .error _ => false) = true := by decide +kernel
  have h3 : timesOf exEvents = [0, 1, 2, 3] := by decide +kernel
  cases hL1 : computeLaplacians 2 exEvents (fun _ => true) none none with
  | error e => rw [hL1] at h1; simp at h1
  | ok L1 =>
    cases hL2 : computeLaplacians 2 exEvents (fun _ => true) (some 2) (some 3) with
    | error e => rw [hL2] at h2; simp at h2
    | ok L2 =>
      rw [hL1] at h1
      rw [hL2] at h2
      simp only [decide_eq_true_eq] at h1 h2
      refine ⟨exEvents, [.laplacians none none, .inter 1 false none none, .laplacians (some 2) (some 3)],
        ⟨some L2, [(1, interMats 2 E (timesOf exEvents) L1 1 false)], []⟩, L2,
        interMats 2 E (timesOf exEvents) L1 1 false, ?_, rfl, by simp, h2, ?_⟩
      · simp [run, List.foldlM_cons, State.step, State.laplacians, State.inter, State.ensureLaps, hL1, hL2,
          State.fresh, bind, Except.bind, pure, Except.pure]
      · rw [interMats_length, h3, h1.1, h1.2]; simp

/-- **C37** is violated: once the inter-event matrices of a rate are cached, asking for them
with the other value of `fix_tau_k` changes nothing, although the matrices requested are
different ones as soon as the exponential separates a single contact over one and two time
units. -/
theorem C37_fix_tau_violated (E : Mat ℚ → Mat ℚ)
    (hE : ∀ A B : Mat ℚ, EqOn 2 A (fun i j => if i = j then -1 else 1) →
      EqOn 2 B (fun i j => if i = j then -2 else 2) → E A ≠ E B) : ∃ (events : List (Event Nat ℚ))
    (s : State ℚ) (L : Laps ℚ) (ms : List (Mat ℚ)),
    run ⟨2, events, fun _ => true, E⟩ [.inter 1 false none none, .inter 1 true none none] = .ok s ∧
    s.laps = some L ∧ s.interT.lookup 1 = some ms ∧
    ms ≠ interMats 2 E (timesOf events) L 1 true := by
  have h1 : (match computeLaplacians 2 [(⟨0, 1, 0, 2⟩ : Event Nat ℚ)] (fun _ => true) none none with
    | .ok L => decide (L.kStart = 0 ∧ L.kStop = 1 ∧ ((L.laplacians.getD 0 eye) 0 0 = 1 ∧
      (L.laplacians.getD 0 eye) 0 1 = -1 ∧ (L.laplacians.getD 0 eye) 1 0 = -1 ∧
      (L.laplacians.getD 0 eye) 1 1 = 1) ∧ noEntries 2 (L.laplacians.getD 0 eye) = false) | .error _ => false) = true := by
    decide +kernel
  have h3 : timesOf [(⟨0, 1, 0, 2⟩ : Event Nat ℚ)] = [0, 2] := by decide +kernel
  cases hL1 : computeLaplacians 2 [(⟨0, 1, 0, 2⟩ : Event Nat ℚ)] (fun _ => true) none none with
  | error e => rw [hL1] at h1; simp at h1
  | ok L1 =>
    rw [hL1] at h1
    simp only [decide_eq_true_eq] at h1
    obtain ⟨k1, k2, k3, k4⟩ := h1
    refine ⟨[⟨0, 1, 0, 2⟩], ⟨some L1, [(1, interMats 2 E (timesOf [⟨0, 1, 0, 2⟩]) L1 1 false)], []⟩, L1,
        interMats 2 E (timesOf [⟨0, 1, 0, 2⟩]) L1 1 false, ?_, rfl, by simp, ?_⟩
    · simp [run, List.foldlM_cons, State.step, State.laplacians, State.inter, State.ensureLaps, hL1,
        State.fresh, bind, Except.bind, pure, Except.pure]
    · rw [h3]
      unfold interMats interMat
      rw [k1, k2]
      simp only [List.take, List.drop, List.zipIdx_cons, List.zipIdx_nil, List.map_cons, List.map_nil, k4]
      intro hc
      simp only [List.length_cons, List.length_nil, Nat.reduceAdd, one_ne_zero, if_false, List.cons.injEq,
        and_true, Bool.false_eq_true] at hc
      refine hE _ _ ?_ ?_ hc.symm
      · intro i hi j hj
        obtain ⟨a, b, c, d⟩ := k3
        interval_cases i <;> interval_cases j <;> simp [a, b, c, d]
      · intro i hi j hj
        obtain ⟨a, b, c, d⟩ := k3
        interval_cases i <;> interval_cases j <;> simp [a, b, c, d]

/-- The first-order approximation of the exponential separates them. -/
example : ∀ A B : Mat ℚ, EqOn 2 A (fun i j => if i = j then -1 else 1) →
    EqOn 2 B (fun i j => if i = j then -2 else 2) →
    (fun i j => eye i j + A i j) ≠ (fun i j => eye i j + B i j : Mat ℚ) := by
  intro A B hA hB hc
  have h := congrFun (congrFun hc 0) 1
  simp [hA 0 (by decide) 1 (by decide), hB 0 (by decide) 1 (by decide), eye] at h

/-- **C37** is violated: once the cumulative matrices of a rate are cached, asking for them in
the other time direction changes nothing, although the matrices requested are different as
soon as the first and the last inter-event matrices are. -/
theorem C37_direction_violated {env : Env K} {s : State K} {l : K} {ms : List (Mat K)}
    (hms : s.interT.lookup l = some ms) (hT : s.T.lookup l = none) (hd : ms.head? ≠ ms.getLast?) :
    ∃ s1 s2, s.trans env l false none true = .ok s1 ∧ s1.trans env l true none true = .ok s2 ∧
      s2.T.lookup l = some (.list (cumulative env.n false none ms)) ∧
      cumulative env.n true none ms ≠ cumulative env.n false none ms := by
  have hne : ms ≠ [] := by rintro rfl; exact hd rfl
  refine ⟨{ s with interT := setKey s.interT l (ms.map (clean env.n none))
                   T := (l, .list (cumulative env.n false none ms)) :: s.T },
    { s with interT := setKey s.interT l (ms.map (clean env.n none))
             T := (l, .list (cumulative env.n false none ms)) :: s.T }, ?_, ?_, ?_, ?_⟩
  · unfold State.trans
    simp only [hms, hT, if_true]
  · unfold State.trans
    simp [lookup_setKey, hms]
  · simp
  · intro hc
    apply hd
    have key : ∀ rev, (cumulative env.n rev none ms).head? =
        if rev then ms.getLast? else ms.head? := by
      intro rev
      obtain ⟨M, rest, e1, e2, _⟩ := cumulative_eq env.n rev none ms hne
      have hhead : ∀ (rest : List (Mat K)) (acc : List (Mat K)), acc ≠ [] →
          (cumLoop env.n none acc rest).head? = acc.head? := by
        intro rest
        induction rest with
        | nil => intro acc _; rfl
        | cons B rest ih =>
          intro acc hacc
          have := ih (acc ++ [finish env.n none (mul env.n (acc.getLastD eye) (clean env.n none B))])
            (by simp)
          have h2 : (acc ++ [finish env.n none (mul env.n (acc.getLastD eye) (clean env.n none B))]).head? =
              acc.head? := by
            cases acc with
            | nil => exact absurd rfl hacc
            | cons _ _ => rfl
          rw [h2] at this
          exact this
      rw [e2, hhead rest _ (by simp), show clean env.n none M = M from rfl]
      have : (ordered rev ms).head? = some M := by rw [e1]; rfl
      unfold ordered at this
      cases rev
      · simpa using this.symm
      · simpa using this.symm
    have h1 := key true
    have h2 := key false
    rw [hc] at h1
    rw [h1] at h2
    simpa using h2.symm

/-- A state reached by calls that meets the hypotheses. -/
example : ∃ (env : Env ℚ) (s : State ℚ) (ms : List (Mat ℚ)),
    run env [.inter 1 false none none] = .ok s ∧ s.interT.lookup 1 = some ms ∧ s.T.lookup 1 = none ∧
    ms.head? ≠ ms.getLast? := by
  let env : Env ℚ := ⟨3, [⟨0, 1, 0, 1⟩, ⟨1, 2, 1, 2⟩], fun _ => false, fun A i j => eye i j + A i j / 2⟩
  have h : (match run env [.inter 1 false none none] with
    | .ok s => (match s.interT.lookup 1, s.T.lookup 1 with
      | some ms, none => (match ms.head?, ms.getLast? with
        | some A, some B => decide (A 0 1 ≠ B 0 1)
        | _, _ => false)
      | _, _ => false)
    | .error _ => false) = true := by decide +kernel
  cases h1 : run env [.inter 1 false none none] with
  | error e => rw [h1] at h; simp at h
  | ok s =>
    rw [h1] at h
    simp only at h
    cases h2 : s.interT.lookup 1 with
    | none => rw [h2] at h; simp at h
    | some ms =>
      cases h3 : s.T.lookup 1 with
      | some v => rw [h2, h3] at h; simp at h
      | none =>
        rw [h2, h3] at h
        simp only at h
        refine ⟨env, s, ms, h1, h2, h3, ?_⟩
        cases h4 : ms.head? with
        | none => rw [h4] at h; simp at h
        | some A =>
          cases h5 : ms.getLast? with
          | none => rw [h4, h5] at h; simp at h
          | some B =>
            rw [h4, h5] at h
            simp only [decide_eq_true_eq] at h
            intro hc
            cases hc
            exact h rfl

end Verif.Trans
