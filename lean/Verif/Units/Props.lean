import Verif.Units.Flow
import Verif.TempNet.Inst

/-!
# C120, C121: the default rate, and results in another unit of time
-/

set_option linter.unusedSectionVars false

namespace Verif.Units

open Verif.TempNet Verif.Trans Verif.Autocov Verif.Flow

variable {K : Type} [Field K] [LinearOrder K] [IsStrictOrderedRing K]

/-- **C120.** The differences of successive times. -/
theorem C120_gaps (times : List K) :
    (gaps times).length = times.length - 1 ∧
      ∀ k (hk : k + 1 < times.length), (gaps times)[k]? = some (times[k + 1] - times[k]) :=
  ⟨gaps_length times, fun k hk => gaps_getElem times k hk⟩

/-- **C120.** With at least two event times the rate used when none is given is positive: one
over the median of the differences of successive times.  At most half of the differences are
shorter, at most half are longer. -/
theorem C120_default_rate (times : List K) (h : times.Pairwise (· < ·)) (h2 : 2 ≤ times.length) :
    ∃ m, 0 < m ∧ IsMedian (gaps times) m ∧ defaultRate times = some (1 / m) ∧
      2 * (gaps times).countP (fun d => decide (d < m)) ≤ (gaps times).length ∧
      2 * (gaps times).countP (fun d => decide (m < d)) ≤ (gaps times).length := by
  have hne : gaps times ≠ [] := by
    intro h0
    have := gaps_length times
    rw [h0] at this
    simp at this
    omega
  obtain ⟨m, hm, hmed⟩ := median_spec hne
  exact ⟨m, isMedian_pos hmed (gaps_pos h), hmed, by unfold defaultRate; rw [hm]; rfl,
    isMedian_halves hmed⟩

/-- **C120.** With fewer than two event times there is no such rate. -/
theorem C120_no_rate (times : List K) (h2 : times.length < 2) : defaultRate times = none := by
  cases times with
  | nil => rfl
  | cons a l =>
    cases l with
    | nil => rfl
    | cons b r => simp only [List.length_cons] at h2; omega

/-- **C121** (Laplacians).  Replacing all times, those of the window included, by strictly
increasing functions of them changes nothing but the times of the window: same errors, same
indices, same Laplacians and adjacency matrices.  Only the order of the times matters. -/
theorem C121_laplacians {L : Type} [LinearOrder L] (φ : K → K) (hφ : StrictMono φ)
    (evs : List (Event L K)) (sf : Nat → Bool) (a b : Option K) :
    let net := ofEvents evs
    let net' := ofEvents (evs.map (Event.clock φ))
    net'.labels = net.labels ∧ net'.numNodes = net.numNodes ∧
      computeLaplacians net'.numNodes net'.events sf (a.map φ) (b.map φ) =
        (computeLaplacians net.numNodes net.events sf a b).map fun l =>
          { l with tStart := φ l.tStart, tStop := φ l.tStop } := by
  have h := ofEvents_clock hφ evs
  simp only [h]
  exact ⟨trivial, trivial, computeLaplacians_clock hφ _ _ _ _ _⟩

/-- **C121** (default rate).  Without a given rate, the rate per new unit of time is the rate
per old unit divided by the factor between the units. -/
theorem C121_default_rate (c s : K) (hc : 0 < c) (evs : List (Event Nat K)) :
    defaultRate (timesOf (evs.map (Event.clock (affine c s)))) =
      (defaultRate (timesOf evs)).map fun r => r / c := by
  rw [timesOf_clock (affine_strictMono hc s), defaultRate_affine hc]

/-- **C121** (matrices).  Take any sequence of calls that uses the lengths of the intervals.
With all times in another unit and with another origin, and all rates per new unit, the same
sequence of calls has the same outcome: the same error, or the same inter-event and cumulative
matrices under the converted rates, and the same Laplacians on the converted window. -/
theorem C121_matrices (c s : K) (hc : 0 < c) (env : Env K) (ops : List (Op K))
    (hu : ∀ op ∈ ops, UsesTimes op) :
    (∀ e, run env ops = .error e → run (Env.clock c s env) (ops.map (Op.clock c s)) = .error e) ∧
    ∀ st, run env ops = .ok st → ∃ st',
      run (Env.clock c s env) (ops.map (Op.clock c s)) = .ok st' ∧
      (∀ r, st'.interT.lookup (r / c) = st.interT.lookup r) ∧
      (∀ r, st'.T.lookup (r / c) = st.T.lookup r) ∧
      st'.laps.map (·.laplacians) = st.laps.map (·.laplacians) ∧
      st'.laps.map (fun l => (l.tStart, l.kStart, l.tStop, l.kStop)) =
        st.laps.map fun l => (affine c s l.tStart, l.kStart, affine c s l.tStop, l.kStop) := by
  have h := run_clock hc s env ops State.fresh (by intro L h; simp [State.fresh] at h) hu
  have h' : run (Env.clock c s env) (ops.map (Op.clock c s)) =
      (run env ops).map (State.clock c s) := h
  rw [h']
  constructor
  · intro e he
    rw [he]; rfl
  · intro st hst
    rw [hst]
    refine ⟨_, rfl, fun r => lookup_scale hc.ne' _ r, fun r => lookup_scale hc.ne' _ r, ?_, ?_⟩
    · cases hl : st.laps <;> simp [State.clock, hl, Laps.clock]
    · cases hl : st.laps <;> simp [State.clock, hl, Laps.clock]

/-- **C121** (flow integral).  The flow integral and everything given to the clustering do not
depend on the unit and origin of the times and of the integration grid. -/
theorem C121_flow (c s : K) (hc : 0 < c) (inp inp' : Input K) (ts : List K)
    (ht : inp.times = some ts)
    (hinp : inp' = { inp with times := some (ts.map (affine c s)),
                              grid := inp.grid.map (List.map (affine c s)) }) :
    (∀ e, construct inp = .error e → construct inp' = .error e) ∧
    ∀ o, construct inp = .ok o → ∃ o', construct inp' = .ok o' ∧
      o'.iList = o.iList ∧ o'.tList = o.tList ∧ o'.p1 = o.p1 ∧
      ∀ k, clusterInput inp' o' k = clusterInput inp o k := by
  have hi : inp' = Input.clock c s inp := by rw [hinp]; unfold Input.clock; rw [ht]; rfl
  have h := construct_clock hc s inp ts ht
  rw [hi, h]
  constructor
  · intro e he
    rw [he]; rfl
  · intro o ho
    rw [ho]
    exact ⟨_, rfl, rfl, rfl, rfl, fun k => rfl⟩

/-- **C121** (communities).  From the contacts to what the clustering is given: after any
sequence of calls on a network, the matrices of a rate and the times of the network give the
same transition matrix and covariance to the clustering as the same calls in another unit of
time, so that a clustering that depends on nothing else finds the same communities. -/
theorem C121_communities (c s : K) (hc : 0 < c) (env : Env K) (ops : List (Op K))
    (hu : ∀ op ∈ ops, UsesTimes op) (st : State K) (hst : run env ops = .ok st) (r : K)
    (ms : List (Mat K)) (hms : st.interT.lookup r = some ms) (inp : Input K)
    (hm : inp.mats = some (.inter ms)) (ht : inp.times = some (timesOf env.events)) (o : Obj K)
    (ho : construct inp = .ok o) :
    ∃ st' o', run (Env.clock c s env) (ops.map (Op.clock c s)) = .ok st' ∧
      st'.interT.lookup (r / c) = some ms ∧
      let inp' : Input K := { inp with
        mats := (st'.interT.lookup (r / c)).map .inter
        times := some (timesOf (Env.clock c s env).events)
        grid := inp.grid.map (List.map (affine c s)) }
      construct inp' = .ok o' ∧ ∀ k, clusterInput inp' o' k = clusterInput inp o k := by
  obtain ⟨st', h1, h2, _⟩ := (C121_matrices c s hc env ops hu).2 st hst
  have h2r := (h2 r).trans hms
  obtain ⟨o', h3, _, _, _, h4⟩ := (C121_flow c s hc inp _ _ ht rfl).2 o ho
  refine ⟨st', o', h1, h2r, ?_⟩
  have e : (timesOf (Env.clock c s env).events) = (timesOf env.events).map (affine c s) :=
    timesOf_clock (affine_strictMono hc s) _
  have e2 : (st'.interT.lookup (r / c)).map Mats.inter = inp.mats := by rw [h2r, hm]; rfl
  simp only [e, e2]
  exact ⟨h3, h4⟩

/-- **C121, not true with `fix_tau_k`.**  All intervals then count as one unit: for every
Laplacian with an entry, every nonzero rate and every change of the unit, the matrix whose
exponential is taken at the converted rate is another one. -/
theorem C121_fix_tau_violated (c r : K) (hc : 0 < c) (hc1 : c ≠ 1) (hr : r ≠ 0) (n : Nat)
    (E : Mat K → Mat K) (L : Mat K) (i j : Nat) (hi : i < n) (hj : j < n) (hL : L i j ≠ 0)
    (t t' u u' : K) :
    ∃ A B : Mat K, interMat n E r true L t t' = E A ∧ interMat n E (r / c) true L u u' = E B ∧
      A i j ≠ B i j := by
  have hno : noEntries n L = false := by
    rw [Bool.eq_false_iff]
    intro h
    simp only [noEntries, List.all_eq_true, List.mem_range, decide_eq_true_eq] at h
    exact hL (h i hi j hj)
  refine ⟨fun i j => -1 * r * L i j, fun i j => -1 * (r / c) * L i j, ?_, ?_, ?_⟩
  · simp [interMat, hno]
  · simp [interMat, hno]
  · intro h
    have h1 := mul_right_cancel₀ hL h
    have h2 : r = r / c := by linarith
    rw [eq_div_iff hc.ne'] at h2
    have : c = 1 := by
      have h3 : r * c = r * 1 := by rw [h2, mul_one]
      exact mul_left_cancel₀ hr h3
    exact hc1 this

/-- **C121, not true of instantaneous networks.**  The last contacts last one unit of time,
whatever the unit: for every list of instantaneous contacts and every change of the unit, the
events made from the converted contacts are not the converted events. -/
theorem C121_inst_violated {L : Type} (c s : K) (hc : 0 < c) (hc1 : c ≠ 1)
    (evs : List (L × L × K)) (hne : evs ≠ []) :
    instEvents (evs.map fun e => (e.1, e.2.1, affine c s e.2.2)) ≠
      (instEvents evs).map (Event.clock (affine c s)) := by
  intro h
  have hφ := affine_strictMono hc s
  unfold instEvents at h
  simp only [List.map_map] at h
  have hut : uniqueSorted (evs.map ((fun e : L × L × K => e.2.2) ∘ fun e => (e.1, e.2.1, affine c s e.2.2))) =
      (uniqueSorted (evs.map fun e => e.2.2)).map (affine c s) := by
    rw [← uniqueSorted_map hφ, List.map_map]
    rfl
  rw [hut] at h
  have hu : uniqueSorted (evs.map fun e => e.2.2) ≠ [] := by
    obtain ⟨e, he⟩ := List.exists_mem_of_ne_nil _ hne
    exact List.ne_nil_of_mem ((mem_uniqueSorted _ _).2 (List.mem_map_of_mem he))
  have hlt := uniqueSorted_lt (evs.map fun e => e.2.2)
  have hmemu : ∀ x, x ∈ uniqueSorted (evs.map fun e => e.2.2) → ∃ e ∈ evs, e.2.2 = x := by
    intro x hx
    simpa using (mem_uniqueSorted _ _).1 hx
  generalize uniqueSorted (evs.map fun e => e.2.2) = u at *
  have hlen : 0 < u.length := List.length_pos_iff.2 hu
  have hk : u.length - 1 < u.length := by omega
  obtain ⟨e, he, hte⟩ := hmemu u[u.length - 1] (List.getElem_mem hk)
  have hlt' : (u.map (affine c s)).Pairwise (· < ·) := by
    rw [List.pairwise_map]
    exact hlt.imp fun h => hφ h
  have h1 := nextTime_spec u hlt (u.length - 1) hk
  rw [dif_neg (by omega)] at h1
  have h2 := nextTime_spec (u.map (affine c s)) hlt' (u.length - 1) (by rw [List.length_map]; exact hk)
  rw [dif_neg (by rw [List.length_map]; omega)] at h2
  rw [List.getElem_map] at h2
  have h3 := List.map_inj_left.1 h e he
  simp only [Function.comp, Event.clock, TempNet.Event.mk.injEq, true_and] at h3
  rw [hte, h1, h2] at h3
  unfold affine at h3
  have : c = 1 := by linarith
  exact hc1 this

/-- **C121**: what this does to the default rate.  Two contacts of the same two nodes, `a`
units of time apart: the last contact counts as `2 / (a + 1)` mean waiting times, which is
another number in every other unit. -/
theorem C121_inst_rate_violated {L : Type} (x y : L) (a : K) (ha : 0 < a)
    (f : L → Nat) :
    timesOf ((instEvents [(x, y, 0), (x, y, a)]).map fun e =>
      (⟨f e.src, f e.tgt, e.start, e.stop⟩ : Event Nat K)) = [0, a, a + 1] ∧
    defaultRate ([0, a, a + 1] : List K) = some (2 / (a + 1)) ∧
    ∀ a' : K, 0 < a' → 2 / (a + 1) = 2 / (a' + 1) → a = a' := by
  have huniq : ∀ l l' : List K, l'.Pairwise (· < ·) → (∀ z, z ∈ l ↔ z ∈ l') → uniqueSorted l = l' := by
    intro l l' hl' hm
    have hp : (uniqueSorted l).Perm l' := by
      rw [List.perm_ext_iff_of_nodup (uniqueSorted_nodup l) (hl'.imp fun h => h.ne)]
      intro z
      rw [mem_uniqueSorted, hm]
    exact hp.eq_of_pairwise (fun p q _ _ h1 h2 => absurd h1 (lt_asymm h2)) (uniqueSorted_lt l) hl'
  refine ⟨?_, ?_, ?_⟩
  · have hu : uniqueSorted ([(x, y, (0 : K)), (x, y, a)].map fun e => e.2.2) = [0, a] :=
      huniq _ _ (by simp [ha]) (by simp)
    have h1 : nextTime [0, a] 0 = a := by
      have := nextTime_spec [0, a] (by simp [ha]) 0 (by simp)
      simpa using this
    have h2 : nextTime [0, a] a = a + 1 := by
      have := nextTime_spec [0, a] (by simp [ha]) 1 (by simp)
      simpa using this
    have hi : instEvents [(x, y, (0 : K)), (x, y, a)] = [⟨x, y, 0, a⟩, ⟨x, y, a, a + 1⟩] := by
      unfold instEvents
      rw [hu]
      simp only [List.map_cons, List.map_nil, h1, h2]
    rw [hi]
    refine huniq _ _ ?_ ?_
    · have h1 : a < a + 1 := by linarith
      have h0 : (0 : K) < a + 1 := by linarith
      simp [ha, h0]
    · intro z
      simp
  · unfold defaultRate
    have hg : gaps ([0, a, a + 1] : List K) = [a, 1] := by simp [gaps]
    have hmed : median ([a, 1] : List K) = some ((a + 1) / 2) := by
      unfold median
      by_cases h1 : a ≤ 1
      · simp [List.insertionSort, List.orderedInsert, h1]
      · simp [List.insertionSort, List.orderedInsert, h1, add_comm]
    rw [hg, hmed]
    simp
  · intro a' ha' h
    have h1 : (a + 1) ≠ 0 := by linarith
    have h2 : (a' + 1) ≠ 0 := by linarith
    rw [div_eq_div_iff h1 h2] at h
    linarith

/-! ### the hypotheses are met -/

/-- Times with differences 1, 3 and 2: the median is 2. -/
example : ([0, 1, 4, 6] : List ℚ).Pairwise (· < ·) ∧
    defaultRate ([0, 1, 4, 6] : List ℚ) = some (1 / 2) := by
  constructor <;> decide +kernel

/-- A sequence of calls that succeeds: two nodes in contact from 0 to 2 and from 3 to 4, in
hours and then in minutes. -/
example :
    let env : Env ℚ := ⟨2, [⟨0, 1, 0, 2⟩, ⟨0, 1, 3, 4⟩], fun _ => true, fun A => A⟩
    (∀ op ∈ [Op.laplacians (some (1 / 2)) none, .inter 2 false none none, .trans 2 false none true],
      UsesTimes (K := ℚ) op) ∧
    (run env [.laplacians (some (1 / 2)) none, .inter 2 false none none, .trans 2 false none true]).toOption.isSome
      = true := by
  constructor
  · simp [UsesTimes]
  · decide +kernel

end Verif.Units
