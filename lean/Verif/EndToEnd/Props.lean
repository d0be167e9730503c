import Verif.EndToEnd.Found

/-!
# C81: from contacts to communities
-/

set_option linter.dupNamespace false
set_option linter.unusedSectionVars false

namespace Verif.EndToEnd

open Verif.FlowStability Verif.TempNet Verif.Trans Verif.Louvain Verif.Flow
open Verif.StateTracking (call exec step assignNamed IsStep IsProp)

variable {L : Type} [LinearOrder L]

/-- The communities found by an instance: for every scale, forward and backward in time. -/
def FoundAll (w : FWorld (NetObj L) FlowObj) (evs : List (Event L ℝ)) (nodes : List L) (times : List ℝ) (scales : List Rat) :
    Prop :=
  ∀ q ∈ scales,
    (∃ f p, w.obj.forward (some q) = some (some f) ∧ f.partition = some p ∧
      Communities nodes (flowCov evs nodes times q false) p.clusters) ∧
    ∃ f p, w.obj.backward (some q) = some (some f) ∧ f.partition = some p ∧
      Communities nodes (flowCov evs nodes times q true) p.clusters

variable (sf : Nat → Bool) (sc0 : Sched) (par0 : Params ℝ)

theorem runF_cons {N F A : Type} (x : Ext N F A) (w : FWorld N F) (op : FOp N F A) (ops : List (FOp N F A)) :
    runF x w (op :: ops) = runF x (Verif.StateTracking.step desc code w (op.toOp x)) ops := rfl

/-- The last three steps, for a network that has, or will compute, the matrices of the walk. -/
theorem last_steps {w : FWorld (NetObj L) FlowObj} {scales : List Rat} {a b} (h : Prepared w (scales.map some) a b) (hc : 2 ≤ w.current)
    (hfl : w.flags "temporal_network" = true) {N : NetObj L} (hN : w.obj.temporalNetwork = some N)
    {evs : List (Event L ℝ)} (hG : GoodContacts evs) (hne : scales ≠ []) {Lp : Laps ℝ} {V : Rat → List (Mat ℝ)}
    (hE : Expects evs scales Lp V N) (hV : ∀ q ∈ scales, Walks evs q (V q)) (kw : Kw L) (hkw : ∀ e, kw ≠ .network e) :
    ∃ w', runF (ext sf sc0 par0) w [.computeInterT false .none false .none, .setFlowClustering .none, .findLouvain kw] = w' ∧
      Prepared w' (scales.map some) a b ∧ w'.current = 5 ∧ (∀ p, w.flags p = true → w'.flags p = true) ∧
      (∃ N', w'.obj.temporalNetwork = some N' ∧ N'.net = ofEvents evs ∧
        ∀ q ∈ scales, N'.state.interT.lookup (1 / (q : ℝ)) = some (V q)) ∧
      (∀ q ∈ scales, ∃ f, w'.obj.forward (some q) = some (some f) ∧ Found (used sc0 par0 kw) evs false q f) ∧
      (∀ q ∈ scales, ∃ f, w'.obj.backward (some q) = some (some f) ∧ Found (used sc0 par0 kw) evs true q f) := by
  obtain ⟨w3, N3, c3, p3, k3, f3, n3, m3, l3⟩ := stage_inter sf sc0 par0 h hc hfl hN hE
  have hmk : ∀ q ∈ scales, ∀ rev, ∃ f, netFlow N3 (some (1 / q)) rev .none = .ok f ∧ Made (used sc0 par0 kw) evs rev q f := fun q hq rev =>
    netFlow_made hG m3 (l3 q hq) (hV q hq) rev _
  obtain ⟨w4, c4, p4, k4, f4, ff, fb, n4, df, db⟩ := stage_flow sf sc0 par0 p3 (by omega) (by rw [f3]; exact hfl) n3 hne
    (fun q hq => by rw [l3 q hq]; rfl) (fun q hq rev => (hmk q hq rev).imp fun _ h => h.1)
  have hmade : ∀ q ∈ scales, ∀ rev, Made (used sc0 par0 kw) evs rev q (made N3 rev (some q)) := by
    intro q hq rev
    obtain ⟨f, h1, h2⟩ := hmk q hq rev
    unfold made
    simp only [Option.map_some, h1]
    exact h2
  obtain ⟨w5, c5, p5, k5, f5, n5, d5, e5⟩ := stage_louvain sf sc0 par0 p4 (by omega) (f4 _ (by rw [f3]; exact hfl)) ⟨ff, fb⟩
    hG kw hkw (fun q hq => ⟨_, df q hq, hmade q hq false⟩) (fun q hq => ⟨_, db q hq, hmade q hq true⟩)
  refine ⟨w5, ?_, p5, k5, ?_, ⟨N3, n5.trans n4, m3, l3⟩, d5, e5⟩
  · rw [runF_cons, runF_cons, runF_cons]
    simp only [FOp.toOp, Verif.StateTracking.step, c3, c4, c5]
    rfl
  · intro p hp
    rw [f5]
    exact f4 p (by rw [f3]; exact hp)

theorem found_all {w : FWorld (NetObj L) FlowObj} {evs : List (Event L ℝ)} {scales : List Rat} {u : Sched × Params ℝ}
    (hf : ∀ q ∈ scales, ∃ f, w.obj.forward (some q) = some (some f) ∧ Found u evs false q f)
    (hb : ∀ q ∈ scales, ∃ f, w.obj.backward (some q) = some (some f) ∧ Found u evs true q f)
    (nodes : List L) (times : List ℝ) (hn : NodesOf evs nodes) (ht : TimesOf evs times) :
    FoundAll w evs nodes times scales := by
  rw [nodes_unique hn, times_unique ht]
  intro q hq
  obtain ⟨f, h1, -, p, h2, h3, -⟩ := hf q hq
  obtain ⟨g, r1, -, p', r2, r3, -⟩ := hb q hq
  exact ⟨⟨f, p, h1, h2, h3⟩, ⟨g, p', r1, r2, r3⟩⟩

/-- The whole pipeline on an instance without a window. -/
theorem pipeline {w : FWorld (NetObj L) FlowObj} {scales : List Rat} (h : Prepared w (scales.map some) none none) (hc : 0 ≤ w.current)
    {evs : List (Event L ℝ)} (hG : GoodContacts evs) (hne : scales ≠ []) (hpos : ∀ q ∈ scales, 0 < q)
    (kw : Kw L) (hkw : ∀ e, kw ≠ .network e) :
    ∃ (w' : FWorld (NetObj L) FlowObj) (V : Rat → List (Mat ℝ)), runF (ext sf sc0 par0) w (steps evs kw) = w' ∧ Prepared w' (scales.map some) none none ∧ w'.current = 5 ∧
      (∀ q ∈ scales, Walks evs q (V q)) ∧ w'.flags "temporal_network" = true ∧
      (∃ N', w'.obj.temporalNetwork = some N' ∧ N'.net = ofEvents evs ∧
        ∀ q ∈ scales, N'.state.interT.lookup (1 / (q : ℝ)) = some (V q)) ∧
      (∀ q ∈ scales, ∃ f, w'.obj.forward (some q) = some (some f) ∧ Found (used sc0 par0 kw) evs false q f) ∧
      (∀ q ∈ scales, ∃ f, w'.obj.backward (some q) = some (some f) ∧ Found (used sc0 par0 kw) evs true q f) := by
  obtain ⟨Lp, hL, hM⟩ := mats_spec hG sf
  obtain ⟨w1, c1, p1, k1, f1, n1⟩ := stage_net sf sc0 par0 h hc evs
  obtain ⟨w2, c2, p2, k2, f2, n2⟩ := stage_laps sf sc0 par0 p1 (by omega) f1 n1 (a' := none) (b' := none) rfl rfl hL
  set V : Rat → List (Mat ℝ) := fun q =>
    interMats (allLabels evs).length (expm (allLabels evs).length) (timesOf (ofEvents evs).events) Lp (1 / (q : ℝ)) false with hVd
  have hV : ∀ q ∈ scales, Walks evs q (V q) := fun q hq => hM q (by exact_mod_cast hpos q hq)
  obtain ⟨w5, r5, p5, k5, f5, n5, d5, e5⟩ := last_steps sf sc0 par0 p2 (by omega) (by rw [f2]; exact f1) n2 hG hne
    (Lp := Lp) (V := V)
    ⟨rfl, rfl, fun q hq => .inr ⟨rfl, by rw [numNodes_eq]⟩⟩ hV kw hkw
  refine ⟨w5, V, ?_, p5, k5, hV, f5 _ (by rw [f2]; exact f1), n5, d5, e5⟩
  rw [← r5]
  unfold steps
  rw [runF_cons, runF_cons]
  simp only [FOp.toOp, Verif.StateTracking.step, c1, c2]

theorem assignAll_cons {N F : Type} {p : Verif.StateTracking.Name} {v : Option (Val N F)} {rest} {w : FWorld N F} {nx : Int}
    {ig : Bool} {o : FlowStability.Obj N F} (h : desc.find p = some (.prop nx ig)) (hs : setter p v w.obj = (none, o)) :
    assignAll w ((p, v) :: rest) = assignAll
      { obj := o
        flags := fun q => if q = p then (if v.isNone && ig then false else true) else w.flags q
        current := min w.current nx
        log := .assigned p v :: w.log } rest := by
  have : assignNamed desc code p v w = (none,
      { obj := o
        flags := fun q => if q = p then (if v.isNone && ig then false else true) else w.flags q
        current := min w.current nx
        log := .assigned p v :: w.log }) := by
    unfold assignNamed
    rw [h]
    show Verif.StateTracking.assign code p nx ig v w = _
    unfold Verif.StateTracking.assign
    rw [show code.setter p v w.obj = (none, o) from hs]
  conv_lhs => unfold assignAll
  rw [this]

/-- A new instance, with time scales and a window, for both directions. -/
theorem constructed_any {l : List (Option Rat)} (hpos : ∀ q, some q ∈ l → 0 < q) (a b : Option Rat) :
    ∃ w : FWorld (NetObj L) FlowObj, FlowStability.construct none (a.map .num) (b.map .num)
        (some (.items (.reusable l))) (some (.int 0)) = .ok w ∧
      Prepared w l (a.map .num) (b.map .num) ∧ 0 ≤ w.current := by
  have hv : l.all validScale = true := by
    rw [List.all_eq_true]
    intro q hq
    cases q with
    | none => rfl
    | some q => simp [validScale, hpos q hq]
  unfold FlowStability.construct initOps
  rw [assignAll_cons (nx := 1) (ig := true) rfl rfl, assignAll_cons (nx := 1) (ig := false) rfl rfl,
    assignAll_cons (nx := 1) (ig := false) rfl rfl,
    assignAll_cons (nx := 2) (ig := true) rfl (by
      show storeTimeScale (.reusable l) _ = _
      unfold storeTimeScale
      simp only [PyIter.loop, hv, if_true]
      rfl),
    assignAll_cons (nx := 3) (ig := true) rfl rfl]
  refine ⟨_, rfl, ⟨rfl, rfl, rfl, rfl, ?_⟩, by
    show (0 : Int) ≤ min (min (min (min (min 0 1) 1) 1) 2) 3
    decide⟩
  intro p hp
  simp only [List.mem_cons, List.not_mem_nil, or_false] at hp
  rcases hp with rfl | rfl | rfl | rfl <;> simp

theorem constructed {scales : List Rat} (hpos : ∀ q ∈ scales, 0 < q) (a b : Option Rat) :
    ∃ w : FWorld (NetObj L) FlowObj, FlowStability.construct none (a.map .num) (b.map .num)
        (some (.items (.reusable (scales.map some)))) (some (.int 0)) = .ok w ∧
      Prepared w (scales.map some) (a.map .num) (b.map .num) ∧ 0 ≤ w.current :=
  constructed_any (by simpa using hpos) a b

/-! ## C81 -/

/-- **C81 (what holds)** For all contacts that last, connect different labels and do not overlap
for a pair, all positive time scales, all random choices and limits: a new instance without a
window runs through all steps, and then holds for each time scale, forward and backward in time,
a partition of the labels, whose covariance of the flow of the random walk on the contacts is not
smaller than that of single labels (up to the bound below which covariances count as zero).

Missing for the full property: an analysis of a window, see `C81_window_violated` and
`C81_window_change_violated`; the time scale `None`, see `C81_default_scale_violated`; the linear
approximation, see `C81_linear_violated`; one direction only, see `C07_single_direction_refused`. -/
theorem C81_pipeline_partial {evs : List (Event L ℝ)} (hG : GoodContacts evs) {scales : List Rat} (hne : scales ≠ [])
    (hpos : ∀ q ∈ scales, 0 < q) (kw : Kw L) (hkw : ∀ e, kw ≠ .network e) :
    ∃ w : FWorld (NetObj L) FlowObj,
      FlowStability.construct none none none (some (.items (.reusable (scales.map some)))) (some (.int 0)) = .ok w ∧
      (runF (ext sf sc0 par0) w (steps evs kw)).current = 5 ∧
      ∀ nodes times, NodesOf evs nodes → TimesOf evs times →
        FoundAll (runF (ext sf sc0 par0) w (steps evs kw)) evs nodes times scales := by
  obtain ⟨w, hw, h1, h2⟩ := constructed (L := L) hpos none none
  obtain ⟨w', V, r1, -, r3, -, -, -, r5, r6⟩ := pipeline sf sc0 par0 h1 h2 hG hne hpos kw hkw
  refine ⟨w, hw, ?_, ?_⟩
  · rw [r1]
    exact r3
  · intro nodes times hn ht
    rw [r1]
    exact found_all r5 r6 nodes times hn ht

/-- **C81** An instance that was used before, in whatever way, and has no window: with new
contacts all steps run again, and all communities are those of the new contacts. -/
theorem C81_used_instance_partial {w : FWorld (NetObj L) FlowObj} {scales : List Rat} (h : Prepared w (scales.map some) none none)
    (hc : 0 ≤ w.current) {evs : List (Event L ℝ)} (hG : GoodContacts evs) (hne : scales ≠ []) (hpos : ∀ q ∈ scales, 0 < q)
    (kw : Kw L) (hkw : ∀ e, kw ≠ .network e) :
    (runF (ext sf sc0 par0) w (steps evs kw)).current = 5 ∧
      ∀ nodes times, NodesOf evs nodes → TimesOf evs times →
        FoundAll (runF (ext sf sc0 par0) w (steps evs kw)) evs nodes times scales := by
  obtain ⟨w', V, r1, -, r3, -, -, -, r5, r6⟩ := pipeline sf sc0 par0 h hc hG hne hpos kw hkw
  rw [r1]
  exact ⟨r3, found_all r5 r6⟩

/-! ## Windows -/

theorem resolves_lt {times : List ℝ} {k m : Nat} {d d' : Nat} {a b : Option ℝ} (hs : times.Pairwise (· < ·))
    (hd : d = 0) (hd' : d' = times.length - 1) (hk : Resolves times k d a) (hm : Resolves times m d' b)
    {s t : ℝ} (hsm : s ∈ times) (htm : t ∈ times) (hst : s < t) (ha : ∀ x ∈ a, x < t) (hb : ∀ y ∈ b, t ≤ y) : k < m := by
  obtain ⟨i, hi, rfl⟩ := List.getElem_of_mem hsm
  obtain ⟨j, hj, rfl⟩ := List.getElem_of_mem htm
  have hij : i < j := by
    by_contra hc
    rcases Nat.lt_or_ge j i with h | h
    · exact absurd (List.pairwise_iff_getElem.1 hs j i hj hi h) (not_lt.2 hst.le)
    · have : i = j := by omega
      subst this
      exact absurd hst (lt_irrefl _)
  have h1 : k < j := by
    cases a with
    | none =>
      have : k = d := hk
      omega
    | some x =>
      obtain ⟨hkl, hor, -⟩ := hk
      rcases hor with h | h
      · by_contra hc
        rcases Nat.lt_or_ge j k with h' | h'
        · have := List.pairwise_iff_getElem.1 hs j k hj hkl h'
          have := ha x rfl
          linarith
        · have : j = k := by omega
          subst this
          have := ha x rfl
          linarith
      · omega
  have h2 : j ≤ m := by
    cases b with
    | none =>
      have : m = d' := hm
      omega
    | some y =>
      obtain ⟨hml, -, hlast⟩ := hm
      exact hlast j hj (hb y rfl)
  omega

/-- What a window leaves out: an interval before it, or a time after it. -/
def LeavesOut (times : List ℝ) (a b : Option ℝ) : Prop :=
  (∃ x ∈ a, ∃ s ∈ times, ∃ t ∈ times, s < t ∧ t ≤ x) ∨ ∃ y ∈ b, ∃ t ∈ times, y < t

/-- What a window keeps: an interval between two times. -/
def Keeps (times : List ℝ) (a b : Option ℝ) : Prop :=
  ∃ s ∈ times, ∃ t ∈ times, s < t ∧ (∀ x ∈ a, x < t) ∧ ∀ y ∈ b, t ≤ y

theorem resolves_out {times : List ℝ} {k m : Nat} {d d' : Nat} {a b : Option ℝ} (hs : times.Pairwise (· < ·))
    (hkm : k < m) (hk : Resolves times k d a) (hm : Resolves times m d' b)
    (h : LeavesOut times a b) : 0 < k ∨ m + 1 < times.length := by
  rcases h with ⟨x, hx, s, hsm, t, htm, hst, htx⟩ | ⟨y, hy, t, htm, hyt⟩
  · left
    cases hx
    obtain ⟨i, hi, rfl⟩ := List.getElem_of_mem hsm
    obtain ⟨j, hj, rfl⟩ := List.getElem_of_mem htm
    have hij : i < j := by
      by_contra hc
      rcases Nat.lt_or_ge j i with h | h
      · exact absurd (List.pairwise_iff_getElem.1 hs j i hj hi h) (not_lt.2 hst.le)
      · have : i = j := by omega
        subst this
        exact absurd hst (lt_irrefl _)
    obtain ⟨-, -, hlast⟩ := hk
    have := hlast j hj htx
    omega
  · right
    cases hy
    obtain ⟨j, hj, rfl⟩ := List.getElem_of_mem htm
    obtain ⟨hml, hor, -⟩ := hm
    rcases hor with h | h
    · by_contra hc
      have : j ≤ m := by omega
      rcases Nat.lt_or_ge j m with h' | h'
      · have := List.pairwise_iff_getElem.1 hs j m hj hml h'
        linarith
      · have : j = m := by omega
        subst this
        linarith
    · omega

theorem boundary_num (a : Option Rat) :
    boundary (a.map (Val.num (N := NetObj L) (F := FlowObj))) = .ok (a.map fun q : Rat => (q : ℝ)) := by
  cases a <;> rfl

/-- The first clustering raises: so does the step. -/
theorem louvain_raises {w : FWorld (NetObj L) FlowObj} {scales : List Rat} {a b} (h : Prepared w (scales.map some) a b) (hc : 4 ≤ w.current)
    (h1 : w.flags "temporal_network" = true)
    (h4 : w.flags "flow_clustering_forward" = true ∧ w.flags "flow_clustering_backward" = true) (hne : scales ≠ [])
    (kw : Kw L) (hb : ∀ q ∈ scales, ∃ f, w.obj.backward (some q) = some (some f) ∧
      (flowLouvain sc0 par0 f kw).1 = some (.ext false)) :
    ∃ w', call desc code "find_louvain_clustering" (FlowStability.findLouvain (ext sf sc0 par0) kw) w =
      (.raised (.ext false), w') := by
  obtain ⟨q, rest, rfl⟩ := List.exists_cons_of_ne_nil hne
  obtain ⟨f, hf, he⟩ := hb q (by simp)
  have hex : ∃ w', exec desc code (FlowStability.findLouvain (ext sf sc0 par0) kw)
      { w with log := .entered "find_louvain_clustering" :: w.log } = (some (.ext false), w') := by
    unfold FlowStability.findLouvain forTimeScales
    simp only [exec, h.scale, PyIter.loop, List.map_cons, louvainLoop, h.direction, le_refl, if_true, louvainOn, hf]
    have : ((ext (L := L) sf sc0 par0).louvain f kw).1 = some (.ext false) := he
    rw [this]
    exact ⟨_, rfl⟩
  obtain ⟨w', hex⟩ := hex
  exact ⟨w', call_raised (lo := 4) (hi := 5) (by unfold IsStep desc; decide) hc
    (ready_of h 4 (fun _ => h1) (fun _ => h4)) hex⟩

/-- **C81 (violated for windows)** For all contacts as above, all positive time scales and every
window that keeps an interval between contact times and leaves one out: a new instance goes
through the first four steps, and `find_louvain_clustering` raises an exception. -/
theorem C81_window_violated {evs : List (Event L ℝ)} (hG : GoodContacts evs) {scales : List Rat} (hne : scales ≠ [])
    (hpos : ∀ q ∈ scales, 0 < q) (a b : Option Rat) {times : List ℝ} (ht : TimesOf evs times)
    (hk : Keeps times (a.map fun q : Rat => (q : ℝ)) (b.map fun q : Rat => (q : ℝ)))
    (hl : LeavesOut times (a.map fun q : Rat => (q : ℝ)) (b.map fun q : Rat => (q : ℝ))) (kw : Kw L) :
    ∃ w : FWorld (NetObj L) FlowObj, FlowStability.construct none (a.map .num) (b.map .num)
        (some (.items (.reusable (scales.map some)))) (some (.int 0)) = .ok w ∧
      (runF (ext sf sc0 par0) w ((steps evs kw).take 4)).current = 4 ∧
      ∃ w', call desc code "find_louvain_clustering" (FlowStability.findLouvain (ext sf sc0 par0) kw)
        (runF (ext sf sc0 par0) w ((steps evs kw).take 4)) = (.raised (.ext false), w') := by
  obtain ⟨w, hw, h0, hc0⟩ := constructed (L := L) hpos a b
  refine ⟨w, hw, ?_⟩
  rw [times_unique ht] at hk hl
  have hp := C33_constructor_tables evs hG.lasting hG.different hG.separate
  obtain ⟨Lp, hL, r1, r2, -, -⟩ := C33_active_contacts_partial hp (events_ne hG.nonempty) sf
    (a.map fun q : Rat => (q : ℝ)) (b.map fun q : Rat => (q : ℝ))
  obtain ⟨L2, hL2, hlt, -⟩ := C59_inter_event hp (events_ne hG.nonempty) sf
    (a.map fun q : Rat => (q : ℝ)) (b.map fun q : Rat => (q : ℝ))
  obtain ⟨L3, hL3, hst⟩ := C34_transition_stochastic hp.inRange hp.noLoops (events_ne hG.nonempty) sf
    (a.map fun q : Rat => (q : ℝ)) (b.map fun q : Rat => (q : ℝ))
  rw [hL] at hL2 hL3
  cases hL2
  cases hL3
  have hsort := (C32_time_grid (ofEvents evs).events).1
  obtain ⟨s, hs1, t, ht1, hst1, ha1, hb1⟩ := hk
  have hkm := resolves_lt hsort rfl rfl r1 r2 hs1 ht1 hst1 ha1 hb1
  have hout := resolves_out hsort hkm r1 r2 hl
  obtain ⟨w1, c1, p1, k1, f1, n1⟩ := stage_net sf sc0 par0 h0 hc0 evs
  obtain ⟨w2, c2, p2, k2, f2, n2⟩ := stage_laps sf sc0 par0 p1 (by omega) f1 n1 (boundary_num a) (boundary_num b) hL
  set V : Rat → List (Mat ℝ) := fun q =>
    interMats (ofEvents evs).numNodes (expm (ofEvents evs).numNodes) (timesOf (ofEvents evs).events) Lp (1 / (q : ℝ)) false with hVd
  obtain ⟨w3, N3, c3, p3, k3, f3, n3, m3, l3⟩ := stage_inter sf sc0 par0 p2 (by omega) (by rw [f2]; exact f1) n2
    (evs := evs) (Lp := Lp) (V := V) ⟨rfl, rfl, fun q hq => .inr ⟨rfl, rfl⟩⟩
  have hmk : ∀ q ∈ scales, ∀ rev, ∃ f, netFlow N3 (some (1 / q)) rev .none = .ok f ∧ f.clustered = false ∧
      Flow.clusterInput f.inp f.obj 0 = .error .indexError := by
    intro q hq rev
    obtain ⟨hne', hlen⟩ := C47_window_lengths (ofEvents evs).numNodes (expm (ofEvents evs).numNodes)
      (timesOf (ofEvents evs).events) Lp (1 / (q : ℝ)) false hkm hlt hout
    have hn : (flowInput N3 (1 / q) rev).n = (ofEvents evs).numNodes := by
      show N3.net.numNodes = _
      rw [m3]
    obtain ⟨o, ho, -, hin⟩ := C47_window_violated (inp := flowInput N3 (1 / q) rev) (Ms := V q)
      (ts := timesOf (ofEvents evs).events)
      (by
        show (N3.state.interT.lookup ((1 / q : Rat) : ℝ)).map Mats.inter = _
        rw [cast_rate, l3 q hq]
        rfl)
      (by show some (timesOf N3.net.events) = _; rw [m3]) hne'
      (by
        rw [hn]
        exact (hst (1 / (q : ℝ)) false (by have := hpos q hq; positivity)).2)
      hlen
      (by
        rw [hn, numNodes_eq]
        exact uniform_dist (nodes_pos hG.nonempty))
      (by intro h; cases h) rfl
    refine ⟨⟨flowInput N3 (1 / q) rev, o, false, none⟩, ?_, rfl, hin 0⟩
    unfold netFlow
    simp only [ho]
  obtain ⟨w4, c4, p4, k4, f4, ff, fb, n4, df, db⟩ := stage_flow sf sc0 par0 p3 (by omega) (by rw [f3, f2]; exact f1) n3 hne
    (fun q hq => by rw [l3 q hq]; rfl) (fun q hq rev => (hmk q hq rev).imp fun _ h => h.1)
  have hrun : runF (ext sf sc0 par0) w ((steps evs kw).take 4) = w4 := by
    unfold steps
    simp only [List.take]
    rw [runF_cons, runF_cons, runF_cons, runF_cons]
    simp only [FOp.toOp, Verif.StateTracking.step, c1, c2, c3, c4]
    rfl
  rw [hrun]
  refine ⟨k4, louvain_raises sf sc0 par0 p4 (by omega) (f4 _ (by rw [f3, f2]; exact f1)) ⟨ff, fb⟩ hne kw ?_⟩
  intro q hq
  obtain ⟨f, e1, e2, e3⟩ := hmk q hq true
  refine ⟨f, ?_, ?_⟩
  · rw [db q hq]
    unfold made
    simp only [Option.map_some, e1]
  · unfold flowLouvain
    cases kw <;> simp only [e2, e3, Bool.false_eq_true, if_false]

theorem assignNamed_ok {N F : Type} {p : Verif.StateTracking.Name} {v : Option (Val N F)} {w : FWorld N F} {nx : Int}
    {ig : Bool} {o : FlowStability.Obj N F} (h : desc.find p = some (.prop nx ig)) (hs : setter p v w.obj = (none, o)) :
    assignNamed desc code p v w = (none,
      { obj := o
        flags := fun q => if q = p then (if v.isNone && ig then false else true) else w.flags q
        current := min w.current nx
        log := .assigned p v :: w.log }) := by
  unfold assignNamed
  rw [h]
  show Verif.StateTracking.assign code p nx ig v w = _
  unfold Verif.StateTracking.assign
  rw [show code.setter p v w.obj = (none, o) from hs]

/-- **C81 (violated for windows)** For all contacts and time scales as above: after a run without
a window, setting any window and repeating the steps that depend on it succeeds, and the
communities are still those of the whole time. -/
theorem C81_window_change_violated {evs : List (Event L ℝ)} (hG : GoodContacts evs) {scales : List Rat} (hne : scales ≠ [])
    (hpos : ∀ q ∈ scales, 0 < q) (a b : Option Rat) (kw : Kw L) (hkw : ∀ e, kw ≠ .network e) :
    ∃ w w' : FWorld (NetObj L) FlowObj,
      FlowStability.construct none none none (some (.items (.reusable (scales.map some)))) (some (.int 0)) = .ok w ∧
      runF (ext sf sc0 par0) w (steps evs kw ++ [.assign "t_start" (a.map .num), .assign "t_stop" (b.map .num)] ++
        (steps evs kw).drop 1) = w' ∧
      w'.current = 5 ∧ w'.obj.tStart = a.map .num ∧ w'.obj.tStop = b.map .num ∧
      ∀ nodes times, NodesOf evs nodes → TimesOf evs times → FoundAll w' evs nodes times scales := by
  obtain ⟨w, hw, h1, h2⟩ := constructed (L := L) hpos none none
  obtain ⟨w', V, r1, r2, r3, hV, hfl, ⟨N, hN, hnet, hlook⟩, -, -⟩ := pipeline sf sc0 par0 h1 h2 hG hne hpos kw hkw
  have hp := C33_constructor_tables evs hG.lasting hG.different hG.separate
  obtain ⟨Lp, hL, -⟩ := C33_active_contacts_partial hp (events_ne hG.nonempty) sf
    (a.map fun q : Rat => (q : ℝ)) (b.map fun q : Rat => (q : ℝ))
  have a1 := assignNamed_ok (N := NetObj L) (F := FlowObj) (p := "t_start") (v := a.map .num) (w := w') (nx := 1) (ig := false) rfl rfl
  have a2 := assignNamed_ok (N := NetObj L) (F := FlowObj) (p := "t_stop") (v := b.map .num)
    (w := (assignNamed desc code "t_start" (a.map .num) w').2) (nx := 1) (ig := false) rfl rfl
  set w1 := (assignNamed desc code "t_start" (a.map .num) w').2 with hw1
  set w2 := (assignNamed desc code "t_stop" (b.map .num) w1).2 with hw2
  have e1 : w1 = _ := congrArg Prod.snd a1
  have e2 : w2 = _ := congrArg Prod.snd a2
  have p2 : Prepared w2 (scales.map some) (a.map .num) (b.map .num) := by
    rw [e2, e1]
    refine ⟨r2.scale, r2.direction, rfl, rfl, ?_⟩
    intro p hp
    have := r2.flags p hp
    simp only [List.mem_cons, List.not_mem_nil, or_false] at hp
    rcases hp with rfl | rfl | rfl | rfl <;> simp [this]
  have k2 : w2.current = 1 := by
    rw [e2, e1]
    show min (min w'.current 1) 1 = 1
    rw [r3]
    decide
  have n2 : w2.obj.temporalNetwork = some N := by rw [e2, e1]; exact hN
  have fl2 : w2.flags "temporal_network" = true := by
    rw [e2, e1]
    simp [hfl]
  obtain ⟨w3, c3, p3, k3, f3, n3⟩ := stage_laps sf sc0 par0 p2 (by omega) fl2 n2 (boundary_num a) (boundary_num b)
    (by rw [hnet]; exact hL)
  obtain ⟨w5, r5, p5, k5, f5, n5, d5, e5⟩ := last_steps sf sc0 par0 p3 (by omega) (by rw [f3]; exact fl2) n3 hG hne
    (Lp := Lp) (V := V) ⟨hnet, rfl, fun q hq => .inl (hlook q hq)⟩ hV kw hkw
  refine ⟨w, w5, hw, ?_, k5, p5.tStart, p5.tStop, found_all d5 e5⟩
  rw [← r5]
  unfold runF Verif.StateTracking.run at r1 ⊢
  rw [List.map_append, List.map_append, List.foldl_append, List.foldl_append, r1]
  unfold steps
  simp only [List.map_cons, List.map_nil, List.foldl_cons, List.foldl_nil, List.drop_succ_cons, List.drop_zero, FOp.toOp,
    Verif.StateTracking.step]
  rw [← hw1, ← hw2, c3]

/-! ## Scales without a value, and the linear approximation -/

/-- A loop that meets a scale for which there are no matrices does not return. -/
theorem flowLoop_stuck {N F A : Type} (x : Ext N F A) (kw : A) (t : Option Rat) (l : List (Option Rat)) (ht : t ∈ l)
    (P : N → Prop) (hno : ∀ n, P n → x.hasInterT n (t.map fun q => 1 / q) = false) (w w' : FWorld N F)
    (hP : ∀ n, w.obj.temporalNetwork = some n → P n) :
    exec desc code (flowLoop x kw l) w ≠ (none, w') := by
  induction l generalizing w with
  | nil => exact absurd ht (by simp)
  | cons s rest ih =>
    intro hex
    unfold flowLoop at hex
    simp only [exec] at hex
    cases hN : w.obj.temporalNetwork with
    | none => simp only [hN, exec] at hex; cases hex
    | some n =>
      simp only [hN] at hex
      by_cases hst : t = s
      · rw [← hst, if_neg (by rw [hno n (hP n hN)]; simp)] at hex
        simp only [exec] at hex
        cases hex
      · have htr : t ∈ rest := by
          rcases List.mem_cons.1 ht with h | h
          · exact absurd h hst
          · exact h
        have keep : ∀ (v : FWorld N F) (p : Verif.StateTracking.Name) (ts : Option Rat) (f : F) (rev : Bool),
            (p = "flow_clustering_forward" ∨ p = "flow_clustering_backward") →
            (assignNamed desc code p (some (.flow ts (some (f, rev)))) v).2.obj.temporalNetwork = v.obj.temporalNetwork := by
          intro v p ts f rev hp
          rcases hp with rfl | rfl <;> cases rev <;> rfl
        have fwd : ∀ v : FWorld N F, v.obj.temporalNetwork = w.obj.temporalNetwork →
            exec desc code (.read fun o => if 0 ≤ o.timeDirection then
              tryFlow "flow_clustering_forward" (x.mkFlow n (s.map fun q => 1 / q) false kw) s false (flowLoop x kw rest)
              else flowLoop x kw rest) v ≠ (none, w') := by
          intro v hv hx
          have hPv : ∀ n, v.obj.temporalNetwork = some n → P n := by rw [hv]; exact hP
          simp only [exec] at hx
          split at hx
          · unfold tryFlow at hx
            cases hm : x.mkFlow n (s.map fun q => 1 / q) false kw with
            | error e =>
              rw [hm] at hx
              dsimp only at hx
              split at hx
              · exact ih htr v hPv hx
              · simp only [exec] at hx; cases hx
            | ok f =>
              rw [hm] at hx
              simp only [tryAssign, exec] at hx
              have hPv' : ∀ m, (assignNamed desc code "flow_clustering_forward" (some (.flow s (some (f, false)))) v).2.obj.temporalNetwork =
                  some m → P m := by rw [keep v _ s f false (.inl rfl)]; exact hPv
              split at hx
              · exact ih htr _ hPv' hx
              · split at hx
                · exact ih htr _ hPv' hx
                · simp only [exec] at hx; cases hx
          · exact ih htr v hPv hx
        split at hex
        · split at hex
          · unfold tryFlow at hex
            cases hm : x.mkFlow n (s.map fun q => 1 / q) true kw with
            | error e =>
              rw [hm] at hex
              dsimp only at hex
              split at hex
              · exact fwd w rfl hex
              · simp only [exec] at hex; cases hex
            | ok f =>
              rw [hm] at hex
              simp only [tryAssign] at hex
              rw [exec] at hex
              split at hex
              · exact fwd _ (keep w _ s f true (.inr rfl)) hex
              · split at hex
                · exact fwd _ (keep w _ s f true (.inr rfl)) hex
                · simp only [exec] at hex; cases hex
          · exact fwd w rfl hex
        · simp only [exec] at hex; cases hex

theorem setFlow_stuck {N F A : Type} (x : Ext N F A) (kw : A) (t : Option Rat) {l : List (Option Rat)} (ht : t ∈ l)
    (P : N → Prop) (hno : ∀ n, P n → x.hasInterT n (t.map fun q => 1 / q) = false) (w w' : FWorld N F)
    (hl : w.obj.timeScale = .reusable l) (hP : ∀ n, w.obj.temporalNetwork = some n → P n) :
    call desc code "set_flow_clustering" (setFlowClustering x kw) w ≠ (.returned, w') := by
  intro h
  rcases Verif.StateTracking.call_cases desc desc_unique code "set_flow_clustering" 3 4 (by unfold IsStep desc; decide)
      (setFlowClustering x kw) w with ⟨_, h1⟩ | ⟨_, _, h1⟩ | ⟨_, r, w2, he, h1⟩
  · rw [h1] at h; cases h
  · rw [h1] at h; cases h
  · rcases h1 with ⟨e, rfl, h1⟩ | ⟨rfl, h1⟩
    · rw [h1] at h; cases h
    · unfold setFlowClustering forTimeScales at he
      simp only [exec, hl, PyIter.loop] at he
      exact flowLoop_stuck x kw t l ht P hno _ w2 (by exact hP) he

/-- **C81 (violated for the time scale `None`)** In every state, with every network and every
argument: if `None`, which `time_scale` accepts and takes as the default, is one of the time
scales, then `set_flow_clustering` does not return. -/
theorem C81_default_scale_violated (w w' : FWorld (NetObj L) FlowObj) {l : List (Option Rat)}
    (hl : w.obj.timeScale = .reusable l) (hn : none ∈ l) (kw : Kw L) :
    call desc code "set_flow_clustering" (setFlowClustering (ext sf sc0 par0) kw) w ≠ (.returned, w') :=
  setFlow_stuck _ kw none hn (fun _ => True) (fun _ _ => rfl) w w' hl (fun _ _ => trivial)

/-- A loop over rates whose steps return, with `P` for the network throughout. -/
theorem stage_rates {w : FWorld (NetObj L) FlowObj} {l : List (Option Rat)} {a b} (h : Prepared w l a b) (hc : 2 ≤ w.current)
    (hfl : w.flags "temporal_network" = true) {N : NetObj L} (hN : w.obj.temporalNetwork = some N) (lin : Bool) (P : NetObj L → Prop)
    (hP : P N) (hstep : ∀ ts ∈ l, ∀ n, P n → ∃ n', netInter sf lin n (ts.map fun q => 1 / q) .none = (none, n') ∧ P n') :
    ∃ w' N', call desc code "compute_inter_transition_matrices" (computeInterT (ext sf sc0 par0) lin none false .none) w =
        (.returned, w') ∧ Prepared w' l a b ∧ w'.current = 3 ∧ w'.flags = w.flags ∧
      w'.obj.temporalNetwork = some N' ∧ P N' := by
  obtain ⟨N', h1, h2, -, -⟩ := interLoop_ok (ext sf sc0 par0) lin Kw.none P (fun _ _ => True) l
    (by
      intro ts hts n hn
      obtain ⟨n', e1, e2⟩ := hstep ts hts n hn
      exact ⟨n', e1, e2, trivial, fun _ _ => trivial⟩)
    { w with log := .entered "compute_inter_transition_matrices" :: w.log } N hN hP
  have hex : exec desc code (computeInterT (ext sf sc0 par0) lin none false .none)
      { w with log := .entered "compute_inter_transition_matrices" :: w.log } =
      (none, { w with log := .entered "compute_inter_transition_matrices" :: w.log,
                      obj := { w.obj with temporalNetwork := some N' } }) := by
    unfold computeInterT
    simp only [exec, hN, Bool.false_eq_true, if_false, forTimeScales, h.scale, PyIter.loop]
    have e : w.obj = { w.obj with temporalNetwork := some N, timeScale := .reusable l } := by
      rw [← h.scale, ← hN]
    rw [e] at h1
    exact h1
  exact ⟨_, N', call_returned (lo := 2) (hi := 3) (by unfold IsStep desc; decide) hc
    (ready_of h 2 (fun _ => hfl) (by omega)) hex, ⟨h.scale, h.direction, h.tStart, h.tStop, h.flags⟩, rfl, rfl, rfl, h2⟩

theorem default_rate {times : List ℝ} (h : 2 ≤ times.length) : ∃ r, defaultRate times = some r := by
  unfold defaultRate
  obtain ⟨m, hm⟩ : ∃ m, median (gaps times) = some m := by
    match times, h with
    | a :: b :: l, _ =>
      have hpos : 0 < ((gaps (a :: b :: l)).insertionSort (· ≤ ·)).length := by
        rw [List.length_insertionSort]
        simp [gaps]
      unfold median
      simp only [if_neg hpos.ne']
      split
      · exact ⟨_, List.getElem?_eq_getElem (by omega)⟩
      · rw [List.getElem?_eq_getElem (show _ < _ by omega), List.getElem?_eq_getElem (show _ < _ by omega)]
        exact ⟨_, rfl⟩
  exact ⟨_, by rw [hm]; rfl⟩

/-- The first two steps of a new instance without a window, for every list of time scales. -/
theorem first_two {evs : List (Event L ℝ)} (hG : GoodContacts evs) {w : FWorld (NetObj L) FlowObj} {l : List (Option Rat)}
    (h : Prepared w l none none) (hc : 0 ≤ w.current) :
    ∃ w' Lp, runF (ext sf sc0 par0) w [.setTemporalNetwork (some (.network evs)), .computeLaplacians .none] = w' ∧
      Prepared w' l none none ∧ w'.current = 2 ∧ w'.flags "temporal_network" = true ∧
      w'.obj.temporalNetwork = some ⟨ofEvents evs, { Trans.State.fresh with laps := some Lp }⟩ := by
  obtain ⟨Lp, hL, -⟩ := mats_spec hG sf
  obtain ⟨w1, c1, p1, k1, f1, n1⟩ := stage_net sf sc0 par0 h hc evs
  obtain ⟨w2, c2, p2, k2, f2, n2⟩ := stage_laps sf sc0 par0 p1 (by omega) f1 n1 (a' := none) (b' := none) rfl rfl hL
  refine ⟨w2, Lp, ?_, p2, k2, by rw [f2]; exact f1, n2⟩
  rw [runF_cons, runF_cons]
  simp only [FOp.toOp, Verif.StateTracking.step, c1, c2]
  rfl

/-- **C81** `compute_inter_transition_matrices` accepts every list of scales: `None` stands for
the median time between events. -/
theorem C81_default_scale_accepted {evs : List (Event L ℝ)} (hG : GoodContacts evs) {l : List (Option Rat)}
    (hpos : ∀ q, some q ∈ l → 0 < q) (kw : Kw L) :
    ∃ w : FWorld (NetObj L) FlowObj, FlowStability.construct none none none (some (.items (.reusable l))) (some (.int 0)) = .ok w ∧
      (runF (ext sf sc0 par0) w ((steps evs kw).take 3)).current = 3 ∧
      (runF (ext sf sc0 par0) w ((steps evs kw).take 3)).obj.timeScale = .reusable l := by
  obtain ⟨w, hw, h1, h2⟩ := constructed_any (L := L) hpos none none
  obtain ⟨w2, Lp, r2, p2, k2, f2, n2⟩ := first_two sf sc0 par0 hG h1 h2
  obtain ⟨w3, N3, c3, p3, k3, -, -, -⟩ := stage_rates sf sc0 par0 p2 (by omega) f2 n2 false
    (fun n => n.net = ofEvents evs ∧ n.state.laps = some Lp) ⟨rfl, rfl⟩
    (by
      rintro ts - n ⟨hn1, hn2⟩
      obtain ⟨r, hr⟩ : ∃ r, rateOf n (ts.map fun q => 1 / q) = some r := by
        cases ts with
        | some q => exact ⟨_, rfl⟩
        | none =>
          show ∃ r, defaultRate (timesOf n.net.events) = some r
          rw [hn1]
          exact default_rate (times_two hG)
      have hens : n.state.ensureLaps (env sf n) none none = .ok (n.state, Lp) := by
        unfold State.ensureLaps
        rw [hn2]
      unfold netInter
      simp only [hr, Bool.false_eq_true, if_false, State.inter, hens]
      cases n.state.interT.lookup r with
      | some v => exact ⟨_, rfl, hn1, hn2⟩
      | none => exact ⟨_, rfl, hn1, hn2⟩)
  have e : runF (ext sf sc0 par0) w ((steps evs kw).take 3) = w3 := by
    have : (steps evs kw).take 3 = [.setTemporalNetwork (some (.network evs)), .computeLaplacians .none] ++
      [.computeInterT false .none false .none] := rfl
    rw [this]
    unfold runF Verif.StateTracking.run at r2 ⊢
    rw [List.map_append, List.foldl_append, r2]
    simp only [List.map_cons, List.map_nil, List.foldl_cons, List.foldl_nil, FOp.toOp, Verif.StateTracking.step, c3]
  refine ⟨w, hw, ?_, ?_⟩
  · rw [e]; exact k3
  · rw [e]; exact p3.scale

/-- **C81 (violated for the default time scale)** An instance made without a time scale holds the
default `None`, but after the first two steps `compute_inter_transition_matrices` is refused,
because `time_scale` is missing. -/
theorem C81_no_scale_violated {evs : List (Event L ℝ)} (hG : GoodContacts evs) :
    ∃ w w' : FWorld (NetObj L) FlowObj, FlowStability.construct none none none none (some (.int 0)) = .ok w ∧
      w.obj.timeScale = .reusable [none] ∧
      runF (ext sf sc0 par0) w [.setTemporalNetwork (some (.network evs)), .computeLaplacians .none] = w' ∧ w'.current = 2 ∧
      ∃ ms, "time_scale" ∈ ms ∧
        call desc code "compute_inter_transition_matrices" (computeInterT (ext sf sc0 par0) false none false .none) w' =
          (.refusedMissing ms, w') := by
  obtain ⟨Lp, hL, -⟩ := mats_spec hG sf
  obtain ⟨w, hw, hts, hd, ha, hb, hf1, hf2, hf3, hc⟩ : ∃ w : FWorld (NetObj L) FlowObj,
      FlowStability.construct none none none none (some (.int 0)) = .ok w ∧ w.obj.timeScale = .reusable [none] ∧
      w.obj.timeDirection = 0 ∧ w.obj.tStart = none ∧ w.obj.tStop = none ∧ w.flags "t_start" = true ∧ w.flags "t_stop" = true ∧
      w.flags "time_scale" = false ∧ 0 ≤ w.current := by
    unfold FlowStability.construct initOps
    rw [assignAll_cons (nx := 1) (ig := true) rfl rfl, assignAll_cons (nx := 1) (ig := false) rfl rfl,
      assignAll_cons (nx := 1) (ig := false) rfl rfl, assignAll_cons (nx := 2) (ig := true) rfl rfl,
      assignAll_cons (nx := 3) (ig := true) rfl rfl]
    refine ⟨_, rfl, rfl, rfl, rfl, rfl, by simp, by simp, by simp, ?_⟩
    show (0 : Int) ≤ min (min (min (min (min 0 1) 1) 1) 2) 3
    decide
  have c1 := call_returned (N := NetObj L) (F := FlowObj) (m := "set_temporal_network") (lo := 0) (hi := 1)
    (body := setTemporalNetwork (ext sf sc0 par0) (some (.network evs))) (w := w) (by unfold IsStep desc; decide) hc
    (by
      intro p s hp hs
      rcases isProp_cases hp with ⟨rfl, rfl⟩ | ⟨rfl, rfl⟩ | ⟨rfl, rfl⟩ | ⟨rfl, rfl⟩ | ⟨rfl, rfl⟩ | ⟨rfl, rfl⟩ | ⟨rfl, rfl⟩ <;>
        exact absurd hs (by decide)) rfl
  set w1 := (call desc code "set_temporal_network" (setTemporalNetwork (ext (L := L) sf sc0 par0) (some (.network evs))) w).2 with hw1
  have e1 : w1 = _ := congrArg Prod.snd c1
  have g1 : w1.obj.temporalNetwork = some ⟨ofEvents evs, Trans.State.fresh⟩ := by rw [e1]; rfl
  have g2 : w1.obj.tStart = none ∧ w1.obj.tStop = none := by rw [e1]; exact ⟨ha, hb⟩
  have g3 : w1.flags "temporal_network" = true ∧ w1.flags "t_start" = true ∧ w1.flags "t_stop" = true ∧
      w1.flags "time_scale" = false := by rw [e1]; exact ⟨rfl, hf1, hf2, hf3⟩
  have g4 : w1.current = 1 := by rw [e1]
  have hex : exec desc code (FlowStability.computeLaplacians (ext sf sc0 par0) .none)
      { w1 with log := .entered "compute_laplacian_matrices" :: w1.log } =
      (none, { w1 with log := .entered "compute_laplacian_matrices" :: w1.log,
                       obj := { w1.obj with temporalNetwork := some ⟨ofEvents evs, { Trans.State.fresh with laps := some Lp }⟩ } }) := by
    unfold FlowStability.computeLaplacians
    simp only [exec, g1, g2]
    have : (ext sf sc0 par0).laplacians ⟨ofEvents evs, Trans.State.fresh⟩ none none .none =
        (none, ⟨ofEvents evs, { Trans.State.fresh with laps := some Lp }⟩) := by
      show netLaplacians sf _ none none .none = _
      unfold netLaplacians
      simp only [boundary, State.laplacians, env, hL]
    rw [this]
    rfl
  have c2 := call_returned (N := NetObj L) (F := FlowObj) (m := "compute_laplacian_matrices") (lo := 1) (hi := 2)
    (by unfold IsStep desc; decide) (by omega)
    (by
      intro p s hp hs
      rcases isProp_cases hp with ⟨rfl, rfl⟩ | ⟨rfl, rfl⟩ | ⟨rfl, rfl⟩ | ⟨rfl, rfl⟩ | ⟨rfl, rfl⟩ | ⟨rfl, rfl⟩ | ⟨rfl, rfl⟩
      all_goals first
        | exact g3.1
        | exact g3.2.1
        | exact g3.2.2.1
        | exact absurd hs (by decide)) hex
  set w2 := (call desc code "compute_laplacian_matrices" (FlowStability.computeLaplacians (ext (L := L) sf sc0 par0) .none) w1).2 with hw2
  have e2 : w2 = _ := congrArg Prod.snd c2
  have k2 : w2.current = 2 := by rw [e2]
  have f2 : w2.flags "time_scale" = false := by rw [e2]; exact g3.2.2.2
  refine ⟨w, w2, hw, hts, ?_, k2, ?_⟩
  · rw [runF_cons, runF_cons]
    rfl
  · have hmem : "time_scale" ∈ Verif.StateTracking.missingFor desc 2 w2.flags := by
      unfold Verif.StateTracking.missingFor
      rw [List.mem_filter]
      exact ⟨by decide, by rw [f2]; rfl⟩
    refine ⟨_, hmem, ?_⟩
    rcases Verif.StateTracking.call_cases desc desc_unique code "compute_inter_transition_matrices" 2 3
        (by unfold IsStep desc; decide) (computeInterT (ext sf sc0 par0) false none false .none) w2 with
      ⟨h, _⟩ | ⟨_, _, h⟩ | ⟨⟨_, h⟩, _⟩
    · exact absurd (by omega) h
    · exact h
    · exact absurd (h "time_scale" 2 (by unfold IsProp desc; decide) (by decide)) (by rw [f2]; simp)

/-- **C81 (violated for the linear approximation)** For all contacts and time scales as above:
with `linear_approx=True` the first three steps of a new instance return, and
`set_flow_clustering` does not: it looks for other matrices. -/
theorem C81_linear_violated {evs : List (Event L ℝ)} (hG : GoodContacts evs) {scales : List Rat} (hne : scales ≠ [])
    (hpos : ∀ q ∈ scales, 0 < q) (kw : Kw L) :
    ∃ w w' : FWorld (NetObj L) FlowObj,
      FlowStability.construct none none none (some (.items (.reusable (scales.map some)))) (some (.int 0)) = .ok w ∧
      runF (ext sf sc0 par0) w [.setTemporalNetwork (some (.network evs)), .computeLaplacians .none,
        .computeInterT true .none false .none] = w' ∧
      w'.current = 3 ∧
      ∀ w'', call desc code "set_flow_clustering" (setFlowClustering (ext sf sc0 par0) kw) w' ≠ (.returned, w'') := by
  obtain ⟨w, hw, h1, h2⟩ := constructed (L := L) hpos none none
  obtain ⟨w2, Lp, r2, p2, k2, f2, n2⟩ := first_two sf sc0 par0 hG h1 h2
  obtain ⟨w3, N3, c3, p3, k3, -, n3, -, hT⟩ := stage_rates sf sc0 par0 p2 (by omega) f2 n2 true
    (fun n => n.state.laps = some Lp ∧ n.state.interT = []) ⟨rfl, rfl⟩
    (by
      rintro ts hts n ⟨hn1, hn2⟩
      obtain ⟨q, hq, rfl⟩ := List.mem_map.1 hts
      have hens : n.state.ensureLaps (env sf n) none none = .ok (n.state, Lp) := by
        unfold State.ensureLaps
        rw [hn1]
      unfold netInter
      simp only [Option.map_some, rateOf, if_true, hens]
      exact ⟨n, rfl, hn1, hn2⟩)
  obtain ⟨q, rest, rfl⟩ := List.exists_cons_of_ne_nil hne
  refine ⟨w, w3, hw, ?_, k3, ?_⟩
  · unfold runF Verif.StateTracking.run at r2 ⊢
    simp only [List.map_cons, List.map_nil, List.foldl_cons, List.foldl_nil, FOp.toOp, Verif.StateTracking.step] at r2 ⊢
    rw [r2, c3]
  · intro w''
    refine setFlow_stuck _ kw (some q) (l := (q :: rest).map some) (by simp) (fun n => n.state.interT = []) ?_ w3 w'' p3.scale ?_
    · intro n hn
      show netHas n (some (1 / q)) = false
      unfold netHas
      rw [hn]
      rfl
    · intro n hn
      rw [n3] at hn
      cases hn
      exact hT

/-! ## Examples -/

/-- Three persons, two contacts: 10 meets 20, then 20 meets 30. -/
noncomputable def exContacts : List (Event Nat ℝ) := [⟨10, 20, 0, 1⟩, ⟨20, 30, 2, 3⟩]

theorem exContacts_good : GoodContacts exContacts := by
  refine ⟨by simp [exContacts], ?_, ?_, ?_⟩
  · intro e he
    simp only [exContacts, List.mem_cons, List.not_mem_nil, or_false] at he
    rcases he with rfl | rfl <;> norm_num
  · intro e he
    simp only [exContacts, List.mem_cons, List.not_mem_nil, or_false] at he
    rcases he with rfl | rfl <;> decide
  · unfold exContacts
    rw [List.pairwise_pair]
    intro _
    left
    norm_num

theorem exContacts_times : TimesOf exContacts [0, 1, 2, 3] := by
  refine ⟨by norm_num, ?_⟩
  intro t
  simp only [exContacts, List.mem_cons, List.not_mem_nil, or_false, exists_eq_or_imp, exists_eq_left]
  tauto

theorem exContacts_nodes : NodesOf exContacts [10, 20, 30] := by
  refine ⟨by decide +kernel, ?_⟩
  intro t
  simp only [exContacts, List.mem_cons, List.not_mem_nil, or_false, exists_eq_or_imp, exists_eq_left]
  tauto

/-- The hypotheses of `C81_pipeline_partial` are met: two time scales and three persons. -/
example : ∃ w : FWorld (NetObj Nat) FlowObj,
    FlowStability.construct none none none (some (.items (.reusable [some 1, some (1 / 2)]))) (some (.int 0)) = .ok w ∧
    (runF (ext sf sc0 par0) w (steps exContacts .none)).current = 5 ∧
    FoundAll (runF (ext sf sc0 par0) w (steps exContacts .none)) exContacts [10, 20, 30] [0, 1, 2, 3] [1, 1 / 2] := by
  obtain ⟨w, h1, h2, h3⟩ := C81_pipeline_partial sf sc0 par0 exContacts_good (scales := [1, 1 / 2]) (by simp) (by simp) .none
    (by simp)
  exact ⟨w, h1, h2, h3 _ _ exContacts_nodes exContacts_times⟩

/-- The hypotheses of `C81_window_violated` are met by the window from 1 to 2. -/
example : Keeps [0, 1, 2, 3] ((some (1 : Rat)).map fun q : Rat => (q : ℝ)) ((some (2 : Rat)).map fun q : Rat => (q : ℝ)) ∧
    LeavesOut [0, 1, 2, 3] ((some (1 : Rat)).map fun q : Rat => (q : ℝ)) ((some (2 : Rat)).map fun q : Rat => (q : ℝ)) := by
  refine ⟨⟨1, by simp, 2, by simp, by norm_num, ?_, ?_⟩, .inr ⟨2, by simp, 3, by simp, by norm_num⟩⟩
  · simp
  · simp

/-- A window boundary written as an integer, written as a fraction instead. -/
def asFraction {N F : Type} : Val N F → Val N F
  | .int i => .num (i : Rat)
  | v => v

/-- **C81** Window boundaries given as integers mean the same times as equal fractions; a value
that is not a number raises and leaves the network as it was. -/
theorem C81_integer_times (N : NetObj L) (a b : Option (Val (NetObj L) FlowObj)) (kw : Kw L) :
    netLaplacians sf N a b kw = netLaplacians sf N (a.map asFraction) (b.map asFraction) kw ∧
    (∀ i : Int, a = some (.int i) → netLaplacians sf N a b kw = netLaplacians sf N (some (.num (i : Rat))) b kw) ∧
    (∀ x, a = some x ∨ b = some x → (∀ q, x ≠ .num q) → (∀ i, x ≠ .int i) →
      netLaplacians sf N a b kw = (some (.ext false), N)) := by
  have key : ∀ a : Option (Val (NetObj L) FlowObj), boundary (a.map asFraction) = boundary a := by
    intro a
    cases a with
    | none => rfl
    | some v => cases v <;> simp [asFraction, boundary]
  refine ⟨?_, ?_, ?_⟩
  · unfold netLaplacians
    rw [key, key]
  · rintro i rfl
    unfold netLaplacians
    rw [← key (some (.int i))]
    rfl
  · intro x hx h1 h2
    have hb : boundary (N := NetObj L) (F := FlowObj) (some x) = .error (.ext false) := by
      cases x with
      | num q => exact absurd rfl (h1 q)
      | int i => exact absurd rfl (h2 i)
      | _ => rfl
    unfold netLaplacians
    cases kw with
    | none =>
      rcases hx with rfl | rfl
      · rw [hb]
      · rw [hb]
        cases boundary a <;> rfl
    | _ => rfl

end Verif.EndToEnd
