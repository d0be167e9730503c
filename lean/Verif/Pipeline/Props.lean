import Verif.Pipeline.Lemmas
import Verif.EndToEnd.Props
import Verif.Calls.Props

/-!
# C140: from contacts to communities with the command line tools
-/

set_option linter.dupNamespace false
set_option linter.unusedSectionVars false

namespace Verif.Pipeline

open Verif.Trans Verif.TempNet Verif.Flow Verif.EndToEnd
open Verif.Scripts (Kind File Slice sliceSteps stepAt sliceSteps_eq resolves_unique)

variable {L : Type} [LinearOrder L] {Λ : Type} [DecidableEq Λ]

theorem at_resolves {times : List ℝ} {t : ℝ} {k : Nat} : At times t k ↔ Resolves times k 0 (some t) := by
  have hg : ∀ (k : Nat) (hk : k < times.length), times.getD k 0 = times[k] := fun k hk => by
    rw [List.getD_eq_getElem?_getD, List.getElem?_eq_getElem hk, Option.getD_some]
  constructor
  · rintro ⟨hk, h1, h2⟩
    refine ⟨hk, by rw [← hg k hk]; exact h1, fun m hm h => h2 m hm (by rw [hg m hm]; exact h)⟩
  · rintro ⟨hk, h1, h2⟩
    exact ⟨hk, by rw [hg k hk]; exact h1, fun m hm h => h2 m hm (by rw [← hg m hm]; exact h)⟩

theorem at_unique {times : List ℝ} (hs : times.Pairwise (· < ·)) {t : ℝ} {k k' : Nat} (h : At times t k) (h' : At times t k') :
    k = k' :=
  Nat.le_antisymm (resolves_unique hs (at_resolves.1 h) (at_resolves.1 h') le_rfl)
    (resolves_unique hs (at_resolves.1 h') (at_resolves.1 h) le_rfl)

/-- What the second tool reads: for every slice the steps between the event times of its bounds. -/
theorem read_all {evs : List (Event L ℝ)} (hg : GoodContacts evs) (sf : Nat → Bool) (label : ℝ → Λ) (opt : Laps.Opt)
    {taus bounds : List ℝ} {D : Nat → Laps.Disk Λ (Held ℝ)} (hW : Written (netEnv evs sf) label opt taus bounds D)
    {tau : ℝ} (ht : tau ∈ taus) (hp : 0 < tau) :
    ∃ κ : Nat → Nat, (∀ k a, bounds[k]? = some a → At (timesOf (ofEvents evs).events) a (κ k)) ∧
      (∀ k, k + 1 < bounds.length → κ k ≤ κ (k + 1) ∧ ∃ s, readSlice (D k) (label tau) = some s ∧
        s.Sound (netEnv evs sf).n ∧ s.inter = (List.range' (κ k) (κ (k + 1) - κ k)).map (stepAt (netEnv evs sf) (1 / tau)) ∧
        s.span = (s.inter.map (·.2)).sum) ∧
      (∀ k, bounds.length ≤ k + 1 → readSlice (D k) (label tau) = none) := by
  classical
  have hpr := C33_constructor_tables evs hg.lasting hg.different hg.separate
  have hne := events_ne hg.nonempty
  have hsorted : (timesOf (ofEvents evs).events).Pairwise (· < ·) := uniqueSorted_lt _
  have hex : ∀ k : Nat, ∃ m : Nat, ∀ a : ℝ, bounds[k]? = some a → At (timesOf (ofEvents evs).events) a m := by
    intro k
    cases hb : bounds[k]? with
    | none => exact ⟨0, fun a h => by simp at h⟩
    | some a =>
      obtain ⟨Lp, -, h, -⟩ := laps_window (env := netEnv evs sf) hpr hne a a
      exact ⟨Lp.kStart, fun a' h' => by injection h' with h'; subst h'; exact at_resolves.2 h⟩
  choose κ hκ using hex
  refine ⟨κ, hκ, ?_, ?_⟩
  · intro k hk
    obtain ⟨d, hd, hD⟩ := hW.files k _ _ (List.getElem?_eq_getElem (by omega)) (List.getElem?_eq_getElem hk)
    obtain ⟨s, k1, m1, h1, h2, h3, h4, h5, h6⟩ := slice_read (env := netEnv evs sf) rfl hpr hne label _ _ opt hW.expm hW.lin hW.inter
      hW.slices taus hW.labels d hd tau ht hp
    have e1 : k1 = κ k := at_unique hsorted (at_resolves.2 h3) (hκ k _ (List.getElem?_eq_getElem (by omega)))
    have e2 : m1 = κ (k + 1) := at_unique hsorted (at_resolves.2 h4) (hκ (k + 1) _ (List.getElem?_eq_getElem hk))
    subst e1 e2
    have hle : κ k ≤ κ (k + 1) :=
      resolves_unique hsorted h3 h4 (List.pairwise_iff_getElem.1 hW.ordered k (k + 1) (by omega) hk (by omega))
    refine ⟨hle, s, by rw [hD]; exact h1, h2, h5, ?_⟩
    rw [h5, steps_sum, h6]
    have e3 : κ k + (κ (k + 1) - κ k) = κ (k + 1) := by omega
    rw [e3, abs_of_nonneg]
    show 0 ≤ (timesOf (ofEvents evs).events).getD (κ (k + 1)) 0 - (timesOf (ofEvents evs).events).getD (κ k) 0
    have a1 : κ (k + 1) < (timesOf (ofEvents evs).events).length := h4.1
    rw [List.getD_eq_getElem?_getD, List.getD_eq_getElem?_getD, List.getElem?_eq_getElem a1,
      List.getElem?_eq_getElem (by omega), Option.getD_some, Option.getD_some, sub_nonneg]
    rcases Nat.lt_or_ge (κ k) (κ (k + 1)) with hlt | hge
    · exact (List.pairwise_iff_getElem.1 hsorted _ _ (by omega) a1 hlt).le
    · have : κ k = κ (k + 1) := by omega
      simp only [this, le_refl]
  · intro k hk
    rw [hW.others k hk]
    rfl

theorem timed_all {evs : List (Event L ℝ)} {sf : Nat → Bool} {tau : ℝ} {bounds : List ℝ} {slices : Nat → Option (Slice ℝ)}
    {κ : Nat → Nat} (hκ : ∀ k a, bounds[k]? = some a → At (timesOf (ofEvents evs).events) a (κ k))
    (h1 : ∀ k, k + 1 < bounds.length → κ k ≤ κ (k + 1) ∧ ∃ s, slices k = some s ∧
        s.Sound (netEnv evs sf).n ∧ s.inter = (List.range' (κ k) (κ (k + 1) - κ k)).map (stepAt (netEnv evs sf) (1 / tau)) ∧
        s.span = (s.inter.map (·.2)).sum) (h2 : ∀ k, bounds.length ≤ k + 1 → slices k = none) :
    Scripts.Load.Timed slices := by
  have hsorted : (timesOf (ofEvents evs).events).Pairwise (· < ·) := uniqueSorted_lt _
  intro k s hs
  rcases Nat.lt_or_ge (k + 1) bounds.length with hk | hk
  · obtain ⟨-, s', hs', -, hi, hsp⟩ := h1 k hk
    rw [hs] at hs'
    injection hs' with hs'
    subst hs'
    refine ⟨hsp, fun e he => ?_⟩
    rw [hi] at he
    obtain ⟨j, hj, rfl⟩ := List.mem_map.1 he
    rw [List.mem_range'_1] at hj
    have hl := (hκ (k + 1) _ (List.getElem?_eq_getElem hk)).1
    show 0 ≤ (timesOf (ofEvents evs).events).getD (j + 1) 0 - (timesOf (ofEvents evs).events).getD j 0
    rw [List.getD_eq_getElem?_getD, List.getD_eq_getElem?_getD, List.getElem?_eq_getElem (by omega),
      List.getElem?_eq_getElem (by omega), Option.getD_some, Option.getD_some, sub_nonneg]
    exact (List.pairwise_iff_getElem.1 hsorted _ _ (by omega) (by omega) (by omega)).le
  · rw [h2 k hk] at hs
    simp at hs

/-- The steps between two grid points. -/
theorem steps_all {evs : List (Event L ℝ)} {sf : Nat → Bool} {tau : ℝ} {bounds : List ℝ} {slices : Nat → Option (Slice ℝ)}
    {κ : Nat → Nat}
    (h1 : ∀ k, k + 1 < bounds.length → κ k ≤ κ (k + 1) ∧ ∃ s, slices k = some s ∧
        s.Sound (netEnv evs sf).n ∧ s.inter = (List.range' (κ k) (κ (k + 1) - κ k)).map (stepAt (netEnv evs sf) (1 / tau)) ∧
        s.span = (s.inter.map (·.2)).sum) {a b : Nat} (hab : a ≤ b) (hb : b < bounds.length) :
    κ a ≤ κ b ∧ (List.range' a (b - a)).flatMap (fun k => ((slices k).map Slice.inter).getD []) =
        (List.range' (κ a) (κ b - κ a)).map (stepAt (netEnv evs sf) (1 / tau)) := by
  have := steps_concat slices κ (stepAt (netEnv evs sf) (1 / tau)) a (b - a) (fun k hk hc => by
    obtain ⟨x, s, y, -, z, -⟩ := h1 k (by omega)
    exact ⟨x, s, y, z⟩)
  rwa [show a + (b - a) = b by omega] at this

theorem step_walk (evs : List (Event L ℝ)) (sf : Nat → Bool) (tau : ℝ) (k : Nat) :
    EqOn (allLabels evs).length (stepAt (netEnv evs sf) (1 / tau) k).1
      (walkStep evs (allLabels evs) (timesOf (ofEvents evs).events) tau k) := by
  have h := interMat_eq (allLabels evs).length (1 / tau) false
    (walkLaplacian (allLabels evs).length (Active (ofEvents evs).events ((timesOf (ofEvents evs).events).getD k 0)))
    ((timesOf (ofEvents evs).events).getD k 0) ((timesOf (ofEvents evs).events).getD (k + 1) 0)
  have e3 : InContact evs (allLabels evs) ((timesOf (ofEvents evs).events).getD k 0) =
      Active (ofEvents evs).events ((timesOf (ofEvents evs).events).getD k 0) := by
    funext a b
    exact propext (active_iff evs _ a b).symm
  have hn : (netEnv evs sf).n = (allLabels evs).length := numNodes_eq evs
  have hE : (netEnv evs sf).E = expm (allLabels evs).length := by
    show expm (ofEvents evs).numNodes = _
    rw [numNodes_eq]
  unfold stepAt walkStep
  rw [hn, hE, e3]
  have he : (netEnv evs sf).events = (ofEvents evs).events := rfl
  simp only [he]
  simpa using h

theorem window_cov (evs : List (Event L ℝ)) (sf : Nat → Bool) (tau : ℝ) (reverse : Bool) (a b : Nat)
    (hb : b < (timesOf (ofEvents evs).events).length) :
    EqOn (allLabels evs).length (meanCov (allLabels evs).length (Autocov.uniform (allLabels evs).length)
      (Scripts.Load.flowOf (allLabels evs).length
        (if reverse then ((List.range' a (b - a)).map (stepAt (netEnv evs sf) (1 / tau))).reverse
          else (List.range' a (b - a)).map (stepAt (netEnv evs sf) (1 / tau)))))
      (windowCov evs (allLabels evs) (timesOf (ofEvents evs).events) tau reverse a b) := by
  have h := flow_steps (netEnv evs sf) (1 / tau) reverse a b hb
  have hn : (netEnv evs sf).n = (allLabels evs).length := numNodes_eq evs
  rw [hn] at h
  rw [h]
  unfold windowCov
  dsimp only
  rw [List.length_map, List.length_range']
  have := eqOn_flowSteps (n := (allLabels evs).length) (p := Autocov.uniform (allLabels evs).length) (reverse := reverse)
    (Ms := (List.range' a (b - a)).map fun k => (stepAt (netEnv evs sf) (1 / tau) k).1)
    (Ms' := (List.range' a (b - a)).map (walkStep evs (allLabels evs) (timesOf (ofEvents evs).events) tau))
    (ts := ((timesOf (ofEvents evs).events).take (b + 1)).drop a) (m := b - a) (by
      rw [List.forall₂_map_left_iff, List.forall₂_map_right_iff, List.forall₂_same]
      intro k _
      exact step_walk evs sf tau k)
  exact this

/-- **C140, a part of the time (partial: the first tool without the argument `verbose`).** After the first tool has written the matrices of all slices, however
often it was stopped before, and after any number of runs of the second one that were stopped too, one
more run of the second one fails for no grid point.  Where no event time lies between two grid points
there is no integral.  Otherwise `run_clusterings` loads, for all numbers of normalisations, the
covariance of the walk on the contacts between the event times of the two grid points, and it finds,
for all random orders, a partition of the nodes and reports the sum of this covariance within its
clusters, not less than that of single nodes unless the covariance passes the all-zeros test. -/
theorem C140_window_partial {evs : List (Event L ℝ)} (hg : GoodContacts evs) {nodes : List L} (hn : NodesOf evs nodes)
    {times : List ℝ} (ht : TimesOf evs times) (sf : Nat → Bool) (label : ℝ → Λ) (opt : Laps.Opt) {taus bounds : List ℝ}
    {D : Nat → Laps.Disk Λ (Held ℝ)} (hW : Written (netEnv evs sf) label opt taus bounds D) {tau : ℝ} (htau : tau ∈ taus)
    (hp : 0 < tau) {cfg : Scripts.Cfg ℝ} {start : Nat} (hR : Reads cfg nodes.length bounds D (label tau) start)
    {d : Scripts.Disk ℝ} (hd : Scripts.Crashes cfg d) {reverse : Bool} (hr : reverse = true → 0 < cfg.indStart)
    {stops : List Nat} (hs : Scripts.intStops cfg.allInds cfg.indStart cfg.onlyOne reverse = .ok stops) {stop : Nat}
    (hstop : stop ∈ stops) {t t' : ℝ} (hb : bounds[start]? = some t) (hb' : bounds[stop]? = some t') {a b : Nat}
    (ha : At times t a) (hab : At times t' b) :
    (Scripts.worker cfg reverse d).failed = none ∧
    (a = b → (Scripts.worker cfg reverse d).disk.integral .expm stop = none) ∧
    (a ≠ b → ∀ (norm : Option Nat) (sc : Louvain.Sched) (par : Louvain.Params ℝ), ∃ v S cl,
      (Scripts.worker cfg reverse d).disk.integral .expm stop = some (.whole v) ∧
      Scripts.Load.loadUniform nodes.length none norm (Scripts.Load.pickled v) = .ok S ∧
      EqOn nodes.length S.toarray (windowCov evs nodes times tau reverse (min a b) (max a b)) ∧
      Comps.runWhole sc par S =
        .ok (cl, within nodes.length (windowCov evs nodes times tau reverse (min a b) (max a b)) cl) ∧
      Partition.IsPartition nodes.length cl ∧
      (S.isAllZeros = false → ∑ i ∈ Finset.range nodes.length, windowCov evs nodes times tau reverse (min a b) (max a b) i i ≤
        within nodes.length (windowCov evs nodes times tau reverse (min a b) (max a b)) cl)) := by
  rw [nodes_unique hn] at hR ⊢
  rw [times_unique ht] at ha hab ⊢
  obtain ⟨κ, hκ, h1, h2⟩ := read_all hg sf label opt hW htau hp
  have hsorted : (timesOf (ofEvents evs).events).Pairwise (· < ·) := uniqueSorted_lt _
  have e0 : (netEnv evs sf).n = cfg.n := by rw [hR.nodes]; exact numNodes_eq evs
  have ea : a = κ start := at_unique hsorted ha (hκ _ _ hb)
  have eb : b = κ stop := at_unique hsorted hab (hκ _ _ hb')
  subst ea eb
  have hU : Scripts.Usable cfg start := ⟨hR.grid, hR.start, by
    intro kind hk x hx k hkx
    cases kind with
    | lin => rw [hR.lin] at hk; exact absurd hk (by simp)
    | expm =>
      have := hR.inside x hx
      obtain ⟨-, s, h3, h4, -⟩ := h1 k (by omega)
      exact ⟨s, by rw [hR.slices]; exact h3, e0 ▸ h4⟩, hR.sqrt⟩
  have hone : cfg.use .lin ≠ cfg.use .expm := by rw [hR.lin, hR.expm]; simp
  have hT : Scripts.Load.Timed (cfg.slices .expm) := by rw [hR.slices]; exact timed_all hκ h1 h2
  obtain ⟨hpw, hmem⟩ := Scripts.intStops_spec hU hr hs
  have hord : Scripts.After reverse start stop := (List.pairwise_cons.1 hpw).1 stop hstop
  have hl : start < bounds.length := (List.getElem?_eq_some_iff.1 hb).1
  have hl' : stop < bounds.length := (List.getElem?_eq_some_iff.1 hb').1
  have hsteps : Scripts.stepsOf (cfg.slices .expm) reverse start stop =
      (if reverse then ((List.range' (min (κ start) (κ stop)) (max (κ start) (κ stop) - min (κ start) (κ stop))).map
          (stepAt (netEnv evs sf) (1 / tau))).reverse
        else (List.range' (min (κ start) (κ stop)) (max (κ start) (κ stop) - min (κ start) (κ stop))).map
          (stepAt (netEnv evs sf) (1 / tau))) := by
    unfold Scripts.stepsOf
    rw [hR.slices]
    cases reverse with
    | false =>
      simp only [Scripts.After, Bool.false_eq_true, if_false] at hord ⊢
      obtain ⟨h3, h4⟩ := steps_all h1 hord.le hl'
      rw [h4, min_eq_left h3, max_eq_right h3]
    | true =>
      simp only [Scripts.After, if_true] at hord ⊢
      obtain ⟨h3, h4⟩ := steps_all h1 hord.le hl
      rw [h4, min_eq_right h3, max_eq_left h3]
  have hspan : Scripts.spanOf (cfg.slices .expm) reverse start stop =
      (timesOf (ofEvents evs).events).getD (max (κ start) (κ stop)) 0 -
        (timesOf (ofEvents evs).events).getD (min (κ start) (κ stop)) 0 := by
    rw [← Scripts.Load.span_steps hT, hsteps]
    have := steps_sum (netEnv evs sf) (1 / tau) (min (κ start) (κ stop)) (max (κ start) (κ stop) - min (κ start) (κ stop))
    rw [show min (κ start) (κ stop) + (max (κ start) (κ stop) - min (κ start) (κ stop)) = max (κ start) (κ stop) by
      have := min_le_max (a := κ start) (b := κ stop); omega] at this
    rw [← show (netEnv evs sf).events = (ofEvents evs).events from rfl, ← this]
    cases reverse
    · rfl
    · simp only [if_true, List.map_reverse, List.sum_reverse]
  obtain ⟨hf, hc⟩ := Scripts.C50_resumed_partial hU hone hd hr hs
  have hmax : max (κ start) (κ stop) < (timesOf (ofEvents evs).events).length := max_lt ha.1 hab.1
  refine ⟨hf, ?_, ?_⟩
  · intro hab'
    have := hc .expm hR.expm stop hstop
    rw [← hab', max_self, min_self, sub_self] at hspan
    cases hd' : (Scripts.worker cfg reverse d).disk.integral .expm stop with
    | none => rfl
    | some f =>
      rw [hd'] at this
      cases f with
      | torn => exact this.elim
      | whole v => exact absurd this.1 (by rw [hspan]; exact lt_irrefl _)
  · intro hab' norm sc par
    have hpos : 0 < Scripts.spanOf (cfg.slices .expm) reverse start stop := by
      rw [hspan, sub_pos, List.getD_eq_getElem?_getD, List.getD_eq_getElem?_getD, List.getElem?_eq_getElem hmax,
        List.getElem?_eq_getElem (lt_of_le_of_lt min_le_max hmax)]
      exact List.pairwise_iff_getElem.1 hsorted _ _ _ _ (min_lt_max.2 hab')
    have hn0 : 0 < cfg.n := by
      rw [hR.nodes]
      obtain ⟨e, he⟩ := List.exists_mem_of_ne_nil evs hg.nonempty
      rw [← nodes_unique hn]
      exact List.length_pos_of_mem ((hn.2 e.src).2 ⟨e, he, .inl rfl⟩)
    have hw := window_cov evs sf tau reverse (min (κ start) (κ stop)) (max (κ start) (κ stop)) hmax
    rw [← hsteps, ← hR.nodes] at hw
    have hcc := hc .expm hR.expm stop hstop
    cases hd' : (Scripts.worker cfg reverse d).disk.integral .expm stop with
    | none => rw [hd'] at hcc; exact absurd hpos (not_lt.2 hcc)
    | some f =>
      rw [hd'] at hcc
      cases f with
      | torn => exact hcc.elim
      | whole v =>
        obtain ⟨S, s1, s2, s3, -, s5, -⟩ := Scripts.Load.C72_loaded_partial hU hn0 hR.expm hT (hmem stop hstop) hcc norm
        have s6 : EqOn cfg.n S.toarray _ := fun i hi j hj => (s5 i hi j hj).trans (hw i hi j hj)
        obtain ⟨cl, c1, c2, c3⟩ := Scripts.Load.run_fit sc par s3 s2 s6
        rw [← hR.nodes]
        exact ⟨v, S, cl, rfl, s1, s6, c1, c2, c3⟩

theorem window_whole (evs : List (Event L ℝ)) (nodes : List L) {times : List ℝ} (h : times ≠ []) (tau : ℝ) (reverse : Bool) :
    windowCov evs nodes times tau reverse 0 (times.length - 1) = flowCov evs nodes times tau reverse := by
  have hl : 0 < times.length := List.length_pos_of_ne_nil h
  unfold windowCov flowCov
  rw [Nat.sub_zero, ← List.range_eq_range', Nat.sub_add_cancel hl, List.take_length, List.drop_zero]

/-- **C140, the whole time (partial: as above).** If the grid points are before and after all contacts, the covariance that
`run_clusterings` loads is the one that the library computes in one process (`flowCov`, the covariance
of C81), in both directions of time. -/
theorem C140_whole_partial {evs : List (Event L ℝ)} (hg : GoodContacts evs) {nodes : List L} (hn : NodesOf evs nodes)
    {times : List ℝ} (ht : TimesOf evs times) (sf : Nat → Bool) (label : ℝ → Λ) (opt : Laps.Opt) {taus bounds : List ℝ}
    {D : Nat → Laps.Disk Λ (Held ℝ)} (hW : Written (netEnv evs sf) label opt taus bounds D) {tau : ℝ} (htau : tau ∈ taus)
    (hp : 0 < tau) {cfg : Scripts.Cfg ℝ} {start : Nat} (hR : Reads cfg nodes.length bounds D (label tau) start)
    {d : Scripts.Disk ℝ} (hd : Scripts.Crashes cfg d) {reverse : Bool} (hr : reverse = true → 0 < cfg.indStart)
    {stops : List Nat} (hs : Scripts.intStops cfg.allInds cfg.indStart cfg.onlyOne reverse = .ok stops) {stop : Nat}
    (hstop : stop ∈ stops) {early late : ℝ}
    (hb : if reverse then bounds[start]? = some late ∧ bounds[stop]? = some early
      else bounds[start]? = some early ∧ bounds[stop]? = some late)
    (he : ∀ e ∈ evs, early ≤ e.start) (hl : ∀ e ∈ evs, e.stop ≤ late)
    (norm : Option Nat) (sc : Louvain.Sched) (par : Louvain.Params ℝ) :
    ∃ v S cl,
      (Scripts.worker cfg reverse d).disk.integral .expm stop = some (.whole v) ∧
      Scripts.Load.loadUniform nodes.length none norm (Scripts.Load.pickled v) = .ok S ∧
      EqOn nodes.length S.toarray (flowCov evs nodes times tau reverse) ∧
      Comps.runWhole sc par S = .ok (cl, within nodes.length (flowCov evs nodes times tau reverse) cl) ∧
      Partition.IsPartition nodes.length cl ∧
      (S.isAllZeros = false → ∑ i ∈ Finset.range nodes.length, flowCov evs nodes times tau reverse i i ≤
        within nodes.length (flowCov evs nodes times tau reverse) cl) := by
  have hall : ∀ x ∈ times, early ≤ x ∧ x ≤ late := by
    intro x hx
    obtain ⟨e, hev, h⟩ := (ht.2 x).1 hx
    have h1 := he e hev
    have h2 := hl e hev
    have h3 := hg.lasting e hev
    rcases h with rfl | rfl
    · exact ⟨h1, h3.le.trans h2⟩
    · exact ⟨h1.trans h3.le, h2⟩
  have htwo : 2 ≤ times.length := by
    obtain ⟨e, hev⟩ := List.exists_mem_of_ne_nil evs hg.nonempty
    have h1 := (ht.2 e.start).2 ⟨e, hev, .inl rfl⟩
    have h2 := (ht.2 e.stop).2 ⟨e, hev, .inr rfl⟩
    have h3 := hg.lasting e hev
    match times, h1, h2 with
    | [x], h1, h2 =>
      rw [List.mem_singleton] at h1 h2
      rw [h1, h2] at h3
      exact absurd h3 (lt_irrefl _)
    | x :: y :: r, _, _ => simp
  have hA : At times early 0 := by
    refine ⟨by omega, .inr rfl, fun m hm h => ?_⟩
    by_contra hc
    have h1 := List.pairwise_iff_getElem.1 ht.1 0 m (by omega) hm (by omega)
    have h2 := (hall _ (List.getElem_mem (show 0 < times.length by omega))).1
    rw [List.getD_eq_getElem?_getD, List.getElem?_eq_getElem hm, Option.getD_some] at h
    exact absurd (h1.trans_le h) (not_lt.2 h2)
  have hB : At times late (times.length - 1) := by
    refine ⟨by omega, .inl ?_, fun m hm _ => by omega⟩
    rw [List.getD_eq_getElem?_getD, List.getElem?_eq_getElem (show times.length - 1 < times.length by omega), Option.getD_some]
    exact (hall _ (List.getElem_mem _)).2
  rw [← window_whole evs nodes (List.ne_nil_of_length_pos (show 0 < times.length by omega)) tau reverse]
  cases reverse with
  | false =>
    simp only [Bool.false_eq_true, if_false] at hb
    have := (C140_window_partial hg hn ht sf label opt hW htau hp hR hd hr hs hstop hb.1 hb.2 hA hB).2.2 (by omega) norm sc par
    rwa [min_eq_left (by omega), max_eq_right (by omega)] at this
  | true =>
    simp only [if_true] at hb
    have := (C140_window_partial hg hn ht sf label opt hW htau hp hR hd hr hs hstop hb.1 hb.2 hB hA).2.2 (by omega) norm sc par
    rwa [min_eq_right (by omega), max_eq_left (by omega)] at this

/-- **C140, the two directions.** In the file of a slice the second tool finds the matrices and the times
between the events from the last to the first just as from the first to the last, in opposite order. -/
theorem C140_directions {evs : List (Event L ℝ)} (hg : GoodContacts evs) (sf : Nat → Bool) (label : ℝ → Λ) (opt : Laps.Opt)
    {taus bounds : List ℝ} {D : Nat → Laps.Disk Λ (Held ℝ)} (hW : Written (netEnv evs sf) label opt taus bounds D)
    {tau : ℝ} (htau : tau ∈ taus) {k : Nat} (hk : k + 1 < bounds.length) :
    ∃ ms times t t', D k (label tau, .inter .expm) = some (.whole (.inter ms times t t')) ∧ ms ≠ [] ∧
      pairs true ms times = (pairs false ms times).reverse := by
  have hpr := C33_constructor_tables evs hg.lasting hg.different hg.separate
  have hne := events_ne hg.nonempty
  obtain ⟨d, hd, hD⟩ := hW.files k _ _ (List.getElem?_eq_getElem (by omega)) (List.getElem?_eq_getElem hk)
  obtain ⟨Lp, hL, h1, h2, -⟩ := laps_window (env := netEnv evs sf) hpr hne bounds[k] bounds[k + 1]
  have hin := slice_inter (label := label) hL tau
  obtain ⟨x, f, c⟩ := Laps.C80_resumed_partial opt (sliceCalc (netEnv evs sf) label bounds[k] bounds[k + 1]) taus hW.labels d hd
    tau htau (by
      intro k' hk'
      cases k' with
      | expm => rw [hin]; rfl
      | lin => rw [hW.lin] at hk'; simp at hk') (.inter .expm) ⟨hW.expm, hW.inter⟩
  have g : x = .inter (interMats (netEnv evs sf).n (netEnv evs sf).E (timesOf (netEnv evs sf).events) Lp (1 / tau) false)
      (((timesOf (netEnv evs sf).events).take (Lp.kStop + 1)).drop Lp.kStart) Lp.tStart Lp.tStop := by
    rcases c with ⟨v, hv, hx⟩ | ⟨-, -, v, hv, hx⟩ <;> (rw [hin] at hv; injection hv with hv; subst hv; exact hx)
  subst g
  refine ⟨_, _, _, _, by rw [hD]; exact f, ?_, pairs_reverse ?_⟩
  · unfold interMats
    dsimp only
    split
    · simp
    · rename_i hh
      intro hc
      rw [hc] at hh
      exact hh rfl
  · have hm' : Lp.kStop < (timesOf (netEnv evs sf).events).length := h2.1
    rcases mats_length hm' (1 / tau) with h | ⟨h, -⟩
    · left
      rw [h]
      simp
      omega
    · right
      simp
      omega

/-! ## The tools as they are -/

/-- Nothing has been integrated or written. -/
def Idle (r : Scripts.Run ℝ) : Prop := r.disk = .empty ∧ r.log = [] ∧ ∀ k, (r.st k).time = 0

theorem idle_interval {cfg : Scripts.Cfg ℝ} (h : ∀ kind k, cfg.slices kind k = none) (reverse : Bool) (kind : Kind) (k : Nat)
    {r : Scripts.Run ℝ} (hr : Idle r) : Idle (r.interval cfg reverse kind k) := by
  obtain ⟨h1, h2, h3⟩ := hr
  have hc : Idle (r.compute cfg reverse kind k) := by
    unfold Scripts.Run.compute
    rw [h]
    exact ⟨h1, h2, h3⟩
  unfold Scripts.Run.interval
  split
  · exact ⟨h1, h2, h3⟩
  · split
    · rw [h1]
      exact hc
    · exact hc

theorem idle_loop {cfg : Scripts.Cfg ℝ} (h : ∀ kind k, cfg.slices kind k = none) (reverse : Bool) (kinds : List Kind) :
    ∀ (stops : List Nat) (a : Nat) {r : Scripts.Run ℝ}, Idle r → Idle (Scripts.Run.loop cfg reverse kinds a stops r)
  | [], _, _, hr => hr
  | stop :: rest, a, r, hr => by
    unfold Scripts.Run.loop
    apply idle_loop h reverse kinds rest stop
    unfold Scripts.Run.upTo
    have hsave : ∀ (l : List Kind) (r : Scripts.Run ℝ), Idle r → Idle (l.foldl (fun r kind => r.save kind stop) r) := by
      intro l
      induction l with
      | nil => exact fun _ h => h
      | cons x l ih =>
        intro r hr
        apply ih
        unfold Scripts.Run.save
        dsimp only
        split
        · exact hr
        · rw [hr.2.2, if_neg (lt_irrefl _)]
          exact hr
    apply hsave
    have hks : ∀ (l : List Nat) (r : Scripts.Run ℝ), Idle r →
        Idle (l.foldl (fun r k => kinds.foldl (fun r kind => r.interval cfg reverse kind k) r) r) := by
      intro l
      induction l with
      | nil => exact fun _ h => h
      | cons k l ih =>
        intro r hr
        apply ih
        have : ∀ (m : List Kind) (r : Scripts.Run ℝ), Idle r → Idle (m.foldl (fun r kind => r.interval cfg reverse kind k) r) := by
          intro m
          induction m with
          | nil => exact fun _ h => h
          | cons x m ihm => exact fun r hr => ihm _ (idle_interval h reverse x k hr)
        exact this kinds r hr
    exact hks _ _ hr

theorem idle_worker {cfg : Scripts.Cfg ℝ} (h : ∀ kind k, cfg.slices kind k = none) (reverse : Bool) :
    (Scripts.worker cfg reverse .empty).log = [] ∧ (Scripts.worker cfg reverse .empty).disk = .empty := by
  have hex : ∀ kind stops, Scripts.existing (.empty : Scripts.Disk ℝ) kind stops = 0 := by
    intro kind stops
    unfold Scripts.existing
    cases stops <;> rfl
  have hres : ∀ start p kind, Scripts.resume cfg .empty reverse start p kind = .ok p := by
    intro start p kind
    unfold Scripts.resume
    split
    · rfl
    · rw [if_pos (hex _ _)]
  unfold Scripts.worker
  cases cfg.allInds[cfg.indStart]? with
  | none => exact ⟨rfl, rfl⟩
  | some start =>
    dsimp only
    cases Scripts.intStops cfg.allInds cfg.indStart cfg.onlyOne reverse with
    | error e => exact ⟨rfl, rfl⟩
    | ok stops =>
      have : [Kind.expm, Kind.lin].foldlM (Scripts.resume cfg .empty reverse start)
          ⟨fun _ => .init, start, stops, fun _ => false, fun _ => 0⟩ =
          .ok ⟨fun _ => .init, start, stops, fun _ => false, fun _ => 0⟩ := by
        simp only [List.foldlM, hres]
        rfl
      dsimp only
      rw [this]
      dsimp only
      split
      · exact ⟨rfl, rfl⟩
      · have hi := idle_loop h reverse ([Kind.expm, Kind.lin].filter fun k => cfg.use k && !false) stops start
          (r := ⟨fun _ => .init, .empty, [], none⟩) ⟨rfl, rfl, fun _ => rfl⟩
        exact ⟨hi.2.1, hi.1⟩

/-- **C140 is violated** by the tools as they are.  However often the first tool is run for every slice,
with whatever options that ask for something to compute and whatever waiting times, the second one, for
all its options, writes no integral, so there is nothing to cluster.  `read`: how the second tool reads the
files of a slice, of which only is used that it finds nothing where there is no file. -/
theorem C140_tools_violated {τ : Type} (saveAdj : Bool) (A : Held ℝ) (opt : Laps.Opt)
    (hu : opt.use .expm = true ∨ opt.use .lin = true) (c : Nat → Laps.Calc τ Λ (Held ℝ)) (taus : List τ) (runs : Nat → Nat)
    (D : Nat → Option (Calls.Files Λ (Held ℝ)))
    (hD : ∀ k, D k = (fun o => o.bind (Calls.worker Calls.pinned saveAdj A opt (c k) taus))^[runs k] (some ⟨none, Laps.empty⟩))
    (cfg : Scripts.Cfg ℝ) (read : Kind → Laps.Disk Λ (Held ℝ) → Option (Slice ℝ)) (hread : ∀ kind, read kind Laps.empty = none)
    (hs : ∀ kind k, cfg.slices kind k = (D k).bind fun f => read kind f.disk) (reverse : Bool) :
    (Scripts.worker cfg reverse .empty).log = [] ∧ (Scripts.worker cfg reverse .empty).disk = .empty ∧
    (∀ kind stop, (Scripts.worker cfg reverse .empty).disk.integral kind stop = none) := by
  have hempty : ∀ k (m : Nat), ∃ a, (fun o => o.bind (Calls.worker Calls.pinned saveAdj A opt (c k) taus))^[m]
      (some (⟨none, Laps.empty⟩ : Calls.Files Λ (Held ℝ))) = some ⟨a, Laps.empty⟩ := by
    intro k m
    induction m with
    | zero => exact ⟨none, rfl⟩
    | succ m ih =>
      obtain ⟨a, ha⟩ := ih
      rw [Function.iterate_succ_apply', ha]
      exact ⟨_, (Calls.C138_nothing_violated saveAdj A opt hu (c k) taus ⟨a, Laps.empty⟩).1⟩
  have hnone : ∀ kind k, cfg.slices kind k = none := by
    intro kind k
    obtain ⟨a, ha⟩ := hempty k (runs k)
    rw [hs, hD k, ha]
    exact hread kind
  obtain ⟨h1, h2⟩ := idle_worker hnone reverse
  refine ⟨h1, h2, fun kind stop => ?_⟩
  rw [h2]
  rfl

/-! ## Example -/

/-- Two contacts, two slices with the bound between them, waiting times 1 and 2, first runs of both
tools. -/
noncomputable def exD (sf : Nat → Bool) (opt : Laps.Opt) (k : Nat) : Laps.Disk ℝ (Held ℝ) :=
  match ([0, 3 / 2, 3] : List ℝ)[k]?, ([0, 3 / 2, 3] : List ℝ)[k + 1]? with
  | some a, some b => (Laps.worker opt (sliceCalc (netEnv exContacts sf) id a b) [1, 2] Laps.empty).disk
  | _, _ => Laps.empty

def exOpt : Laps.Opt := ⟨fun k => match k with | .expm => true | .lin => false, true, true, false, true⟩

noncomputable def exCfg (sf : Nat → Bool) (indStart : Nat) : Scripts.Cfg ℝ where
  n := 3
  mkl := false
  sqrt := Real.sqrt
  use := exOpt.use
  saveIntermediate := true
  onlyOne := false
  allInds := [0, 1, 2]
  indStart := indStart
  slices := fun _ k => readSlice (exD sf exOpt k) 2

theorem ex_written (sf : Nat → Bool) : Written (netEnv exContacts sf) id exOpt [1, 2] [0, 3 / 2, 3] (exD sf exOpt) := by
  refine ⟨rfl, rfl, rfl, rfl, fun _ _ _ _ h => h, ?_, ?_, ?_⟩
  · simp
    norm_num
  · intro k a b ha hb
    refine ⟨Laps.empty, .start, ?_⟩
    unfold exD
    rw [ha, hb]
  · intro k hk
    unfold exD
    rw [List.getElem?_eq_none (l := [0, 3 / 2, 3]) (i := k + 1) hk]
    cases ([0, 3 / 2, 3] : List ℝ)[k]? <;> rfl

theorem ex_reads (sf : Nat → Bool) (i : Nat) (hi : i < 3) : Reads (exCfg sf i) 3 [0, 3 / 2, 3] (exD sf exOpt) (id (2 : ℝ)) i := by
  refine ⟨rfl, rfl, rfl, rfl, by simp [exCfg], by simp [exCfg], ?_, fun x hx => Real.mul_self_sqrt hx⟩
  show ([0, 1, 2] : List Nat)[i]? = some i
  match i, hi with
  | 0, _ => rfl
  | 1, _ => rfl
  | 2, _ => rfl

/-- A run of both tools as they are. -/
example (sf : Nat → Bool) (reverse : Bool) :
    (Scripts.worker { exCfg sf 0 with slices := fun _ k => ((Calls.worker Calls.pinned true .flow exOpt
      (sliceCalc (netEnv exContacts sf) id k (k + 1)) [1, 2] ⟨none, Laps.empty⟩).bind fun f => readSlice f.disk 2) }
      reverse .empty).log = [] :=
  (C140_tools_violated true .flow exOpt (.inl rfl) (fun k => sliceCalc (netEnv exContacts sf) id k (k + 1)) [1, 2] (fun _ => 1)
    _ (fun _ => rfl) _ (fun _ d => readSlice d 2) (fun _ => rfl) (fun _ _ => rfl) reverse).1

/-- The hypotheses of `C140_window_partial` and `C140_whole_partial` are met, forward and backward: all of the time from
both ends, and the time to the bound in the middle, which is no event time. -/
example (sf : Nat → Bool) (sc : Louvain.Sched) (par : Louvain.Params ℝ) :
    (∃ v S cl, (Scripts.worker (exCfg sf 0) false .empty).disk.integral .expm 2 = some (.whole v) ∧
      Scripts.Load.loadUniform 3 none (some 4) (Scripts.Load.pickled v) = .ok S ∧
      EqOn 3 S.toarray (flowCov exContacts [10, 20, 30] [0, 1, 2, 3] 2 false) ∧
      Comps.runWhole sc par S = .ok (cl, within 3 (flowCov exContacts [10, 20, 30] [0, 1, 2, 3] 2 false) cl)) ∧
    (∃ v S cl, (Scripts.worker (exCfg sf 2) true .empty).disk.integral .expm 0 = some (.whole v) ∧
      Scripts.Load.loadUniform 3 none none (Scripts.Load.pickled v) = .ok S ∧
      EqOn 3 S.toarray (flowCov exContacts [10, 20, 30] [0, 1, 2, 3] 2 true) ∧
      Comps.runWhole sc par S = .ok (cl, within 3 (flowCov exContacts [10, 20, 30] [0, 1, 2, 3] 2 true) cl)) ∧
    ∃ v, (Scripts.worker (exCfg sf 0) false .empty).disk.integral .expm 1 = some (.whole v) := by
  have hex : ∀ e ∈ exContacts, (0 : ℝ) ≤ e.start ∧ e.stop ≤ 3 := by
    intro e he
    simp only [exContacts, List.mem_cons, List.not_mem_nil, or_false] at he
    rcases he with rfl | rfl <;> norm_num
  refine ⟨?_, ?_, ?_⟩
  · obtain ⟨v, S, cl, h1, h2, h3, h4, -⟩ := C140_whole_partial exContacts_good exContacts_nodes exContacts_times sf id exOpt (ex_written sf)
      (tau := 2) (by simp) (by norm_num) (ex_reads sf 0 (by omega)) .start (reverse := false) (by simp) (stops := [1, 2]) rfl
      (stop := 2) (by simp) (early := 0) (late := 3) (by simp) (fun e he => (hex e he).1) (fun e he => (hex e he).2) (some 4) sc par
    exact ⟨v, S, cl, h1, h2, h3, h4⟩
  · obtain ⟨v, S, cl, h1, h2, h3, h4, -⟩ := C140_whole_partial exContacts_good exContacts_nodes exContacts_times sf id exOpt (ex_written sf)
      (tau := 2) (by simp) (by norm_num) (ex_reads sf 2 (by omega)) .start (reverse := true) (by simp [exCfg]) (stops := [1, 0]) rfl
      (stop := 0) (by simp) (early := 0) (late := 3) (by simp) (fun e he => (hex e he).1) (fun e he => (hex e he).2) none sc par
    exact ⟨v, S, cl, h1, h2, h3, h4⟩
  · have hA : At [0, 1, 2, 3] 0 0 := by
      refine ⟨by simp, .inr rfl, fun m hm h => ?_⟩
      simp only [List.length_cons, List.length_nil] at hm
      match m, hm, h with
      | 0, _, _ => simp
      | 1, _, h => norm_num at h
      | 2, _, h => norm_num at h
      | 3, _, h => norm_num at h
    have hB : At [0, 1, 2, 3] (3 / 2) 1 := by
      refine ⟨by simp, .inl (by norm_num), fun m hm h => ?_⟩
      simp only [List.length_cons, List.length_nil] at hm
      match m, hm, h with
      | 0, _, _ => simp
      | 1, _, h => simp
      | 2, _, h => norm_num at h
      | 3, _, h => norm_num at h
    obtain ⟨v, -, -, h, -⟩ := (C140_window_partial exContacts_good exContacts_nodes exContacts_times sf id exOpt (ex_written sf)
      (tau := 2) (by simp) (by norm_num) (ex_reads sf 0 (by omega)) .start (reverse := false) (by simp) (stops := [1, 2]) rfl
      (stop := 1) (by simp) (t := 0) (t' := 3 / 2) (by simp) (by simp) hA hB).2.2 (by simp) none sc par
    exact ⟨v, h⟩

end Verif.Pipeline
