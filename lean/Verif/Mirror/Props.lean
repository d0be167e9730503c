import Verif.Mirror.Lemmas
import Verif.Average.Contacts
import Verif.Listing.Spec
import Verif.Units.Spec
import Verif.Rename.Spec

/-!
# Equivalent data, equal communities: properties C81, C130, C131
-/

set_option linter.dupNamespace false
set_option linter.unusedSectionVars false

namespace Verif.Mirror

open Verif.TempNet Verif.EndToEnd Verif.FlowStability Verif.Trans Verif.Flow Verif.Louvain Verif.Partition Verif.Average

variable {L : Type} [LinearOrder L]

/-- **C81**, which communities.  On every instance without a window, whatever was done with it
before, the analysis ends, and the partition it holds for a time scale and a direction is the one
that a single search returns on the covariance of the walk and its transition over the whole time,
with the random choices and limits of the call. -/
theorem C81_search (sf : Nat → Bool) (sc0 : Sched) (par0 : Params ℝ) {w : FWorld (NetObj L) FlowObj} {scales : List Rat}
    (h : Prepared w (scales.map some) none none) (hc : 0 ≤ w.current) {evs : List (Event L ℝ)} (hG : GoodContacts evs)
    (hne : scales ≠ []) (hpos : ∀ q ∈ scales, 0 < q) (kw : Kw L) (hkw : ∀ e, kw ≠ .network e) {nodes : List L} {times : List ℝ}
    (hn : NodesOf evs nodes) (ht : TimesOf evs times) (rev : Bool) {q : Rat} (hq : q ∈ scales) :
    ∃ p, Holds (runF (ext sf sc0 par0) w (steps evs kw)) rev q p ∧
      SearchOf (used sc0 par0 kw) evs nodes times q rev p := by
  obtain ⟨w', V, r1, -, r3, -, -, -, r5, r6⟩ := pipeline sf sc0 par0 h hc hG hne hpos kw hkw
  rw [r1, nodes_unique hn, times_unique ht]
  cases rev
  · obtain ⟨f, e1, -, p, e2, -, -, e3⟩ := r5 q hq
    exact ⟨p, ⟨f, e1, e2⟩, e3⟩
  · obtain ⟨f, e1, -, p, e2, -, -, e3⟩ := r6 q hq
    exact ⟨p, ⟨f, e1, e2⟩, e3⟩

theorem holds_unique {w : FWorld (NetObj L) FlowObj} {rev : Bool} {q : Rat} {p p' : Part} (h : Holds w rev q p) (h' : Holds w rev q p') :
    p = p' := by
  obtain ⟨f, h1, h2⟩ := h
  obtain ⟨f', h3, h4⟩ := h'
  rw [h1] at h3
  cases h3
  rw [h2] at h4
  cases h4
  rfl

theorem nodesOf_spec (evs : List (Event L ℝ)) : NodesOf evs (allLabels evs) := ⟨uniqueSorted_lt _, fun l => by rw [mem_allLabels]⟩

/-! ## C130: time read backward -/

/-- **C130**, covariance.  The forward covariance of contacts read backward in time is the
backward covariance of the contacts, and vice versa. -/
theorem C130_covariance {evs : List (Event L ℝ)} (h : GoodContacts evs) (c : ℝ) (sf sf' : Nat → Bool) {scale : ℝ} (hs : 0 < scale)
    (rev : Bool) : ∃ S S', computedFlow sf evs scale rev = some S ∧ computedFlow sf' (evs.map (mirror c)) scale (!rev) = some S' ∧
      ∀ nodes, NodesOf evs nodes → EqOn nodes.length S' S := by
  obtain ⟨S, hS, hE⟩ := computedFlow_spec h sf hs rev
  obtain ⟨S', hS', hE'⟩ := computedFlow_spec (good_mirror h c) sf' hs (!rev)
  refine ⟨S, S', hS, hS', fun nodes hn => ?_⟩
  obtain ⟨times, ht⟩ : ∃ times, TimesOf evs times := ⟨_, timesOf_spec evs⟩
  have e1 := nodes_unique hn
  have e2 := nodes_unique (nodesOf_mirror hn c)
  rw [← e1, ← times_unique ht] at hE
  rw [← e2, ← times_unique (timesOf_mirror ht c), flowCov_mirror ht, Bool.not_not] at hE'
  exact fun i hi j hj => (hE' i hi j hj).trans (hE i hi j hj).symm

/-- **C130**, communities.  For an analysis of contacts and one of the contacts read backward in
time, with the same random choices: the forward communities of one are the backward communities of
the other, for every time scale. -/
theorem C130_communities (sf sf' : Nat → Bool) (sc0 : Sched) (par0 : Params ℝ) {w w' : FWorld (NetObj L) FlowObj} {scales : List Rat}
    (h : Prepared w (scales.map some) none none) (hc : 0 ≤ w.current) (h' : Prepared w' (scales.map some) none none) (hc' : 0 ≤ w'.current)
    {evs : List (Event L ℝ)} (hG : GoodContacts evs)
    (hne : scales ≠ []) (hpos : ∀ q ∈ scales, 0 < q) (kw : Kw L) (hkw : ∀ e, kw ≠ .network e) (c : ℝ) (rev : Bool) {q : Rat}
    (hq : q ∈ scales) :
    ∃ p, Holds (runF (ext sf sc0 par0) w (steps evs kw)) rev q p ∧
      Holds (runF (ext sf' sc0 par0) w' (steps (evs.map (mirror c)) kw)) (!rev) q p := by
  obtain ⟨nodes, hn⟩ : ∃ nodes, NodesOf evs nodes := ⟨_, nodesOf_spec evs⟩
  obtain ⟨times, ht⟩ : ∃ times, TimesOf evs times := ⟨_, timesOf_spec evs⟩
  obtain ⟨p, a1, a2⟩ := C81_search sf sc0 par0 h hc hG hne hpos kw hkw hn ht rev hq
  obtain ⟨p', b1, b2⟩ := C81_search sf' sc0 par0 h' hc' (good_mirror hG c) hne hpos kw hkw (nodesOf_mirror hn c) (timesOf_mirror ht c)
    (!rev) hq
  have e : p = p' := searchOf_unique rfl (fun i _ j _ => by rw [walkOver_mirror ht, Bool.not_not])
    (fun i _ j _ => by rw [flowCov_mirror ht, Bool.not_not]) a2 b2
  subst e
  exact ⟨p, a1, b1⟩

/-! ## C131: equivalent data -/

theorem inContact_like {evs evs' : List (Event L ℝ)} (h : ∀ e ∈ evs, ∃ f ∈ evs', Listing.Like e f) {nodes : List L} {u : ℝ} {i j : Nat}
    (hi : InContact evs nodes u i j) : InContact evs' nodes u i j := by
  obtain ⟨e, he, h1, h2, h3⟩ := hi
  obtain ⟨f, hf, hl, h4, h5⟩ := h e he
  refine ⟨f, hf, by rw [← h4]; exact h1, by rw [← h5]; exact h2, ?_⟩
  rcases hl with ⟨a, b⟩ | ⟨a, b⟩
  · rw [← a, ← b]; exact h3
  · rw [← a, ← b]; exact h3.symm.imp And.symm And.symm

theorem label_like {evs evs' : List (Event L ℝ)} (h : ∀ e ∈ evs, ∃ f ∈ evs', Listing.Like e f) {l : L}
    (hl : ∃ e ∈ evs, l = e.src ∨ l = e.tgt) : ∃ e ∈ evs', l = e.src ∨ l = e.tgt := by
  obtain ⟨e, he, h1⟩ := hl
  obtain ⟨f, hf, hl, -, -⟩ := h e he
  refine ⟨f, hf, ?_⟩
  rcases hl with ⟨a, b⟩ | ⟨a, b⟩
  · rw [← a, ← b]; exact h1
  · rw [← a, ← b]; exact h1.symm

theorem time_like {evs evs' : List (Event L ℝ)} (h : ∀ e ∈ evs, ∃ f ∈ evs', Listing.Like e f) {t : ℝ}
    (hl : ∃ e ∈ evs, t = e.start ∨ t = e.stop) : ∃ e ∈ evs', t = e.start ∨ t = e.stop := by
  obtain ⟨e, he, h1⟩ := hl
  obtain ⟨f, hf, -, h4, h5⟩ := h e he
  exact ⟨f, hf, by rw [← h4, ← h5]; exact h1⟩

/-- **C131**, listing.  Two analyses of the same contacts, in whatever order they are listed and
whichever node of a contact comes first, on whatever instances, with the same random choices: the
communities are the same. -/
theorem C131_listing (sf sf' : Nat → Bool) (sc0 : Sched) (par0 : Params ℝ) {w w' : FWorld (NetObj L) FlowObj} {scales scales' : List Rat}
    (h : Prepared w (scales.map some) none none) (hc : 0 ≤ w.current) (h' : Prepared w' (scales'.map some) none none) (hc' : 0 ≤ w'.current)
    {evs evs' : List (Event L ℝ)} (hG : GoodContacts evs) (hG' : GoodContacts evs') (hs : Listing.SameContacts evs evs')
    (hpos : ∀ q ∈ scales, 0 < q) (hpos' : ∀ q ∈ scales', 0 < q) (kw : Kw L) (hkw : ∀ e, kw ≠ .network e) (rev : Bool) {q : Rat}
    (hq : q ∈ scales) (hq' : q ∈ scales') :
    ∃ p, Holds (runF (ext sf sc0 par0) w (steps evs kw)) rev q p ∧ Holds (runF (ext sf' sc0 par0) w' (steps evs' kw)) rev q p := by
  obtain ⟨nodes, hn⟩ : ∃ nodes, NodesOf evs nodes := ⟨_, nodesOf_spec evs⟩
  obtain ⟨times, ht⟩ : ∃ times, TimesOf evs times := ⟨_, timesOf_spec evs⟩
  have hn' : NodesOf evs' nodes := ⟨hn.1, fun l => (hn.2 l).trans ⟨label_like hs.1, label_like hs.2⟩⟩
  have ht' : TimesOf evs' times := ⟨ht.1, fun l => (ht.2 l).trans ⟨time_like hs.1, time_like hs.2⟩⟩
  have hI : InContact evs nodes = InContact evs' nodes := by
    funext u i j
    exact propext ⟨inContact_like hs.1, inContact_like hs.2⟩
  have hw : walkStep evs nodes times q = walkStep evs' nodes times q := by
    funext k
    unfold walkStep
    rw [hI]
  obtain ⟨p, a1, a2⟩ := C81_search sf sc0 par0 h hc hG (List.ne_nil_of_mem hq) hpos kw hkw hn ht rev hq
  obtain ⟨p', b1, b2⟩ := C81_search sf' sc0 par0 h' hc' hG' (List.ne_nil_of_mem hq') hpos' kw hkw hn' ht' rev hq'
  have e : p = p' := searchOf_unique rfl (fun i _ j _ => by unfold walkOver; rw [hw])
    (fun i _ j _ => by unfold flowCov; rw [hw]) a2 b2
  subst e
  exact ⟨p, a1, b1⟩

theorem good_clock {evs : List (Event L ℝ)} (h : GoodContacts evs) {φ : ℝ → ℝ} (hφ : StrictMono φ) :
    GoodContacts (evs.map (Units.Event.clock φ)) := by
  refine ⟨by simpa using h.nonempty, ?_, ?_, ?_⟩
  · intro e he
    obtain ⟨f, hf, rfl⟩ := List.mem_map.1 he
    exact hφ (h.lasting f hf)
  · intro e he
    obtain ⟨f, hf, rfl⟩ := List.mem_map.1 he
    exact h.different f hf
  · rw [List.pairwise_map]
    exact h.separate.imp fun {e f} hef hp => (hef hp).imp (fun x => hφ.monotone x) (fun x => hφ.monotone x)

theorem nodesOf_clock {evs : List (Event L ℝ)} {nodes : List L} (h : NodesOf evs nodes) (φ : ℝ → ℝ) :
    NodesOf (evs.map (Units.Event.clock φ)) nodes := by
  refine ⟨h.1, fun l => (h.2 l).trans ?_⟩
  constructor
  · rintro ⟨e, he, h⟩
    exact ⟨_, List.mem_map_of_mem he, h⟩
  · rintro ⟨e, he, h⟩
    obtain ⟨f, hf, rfl⟩ := List.mem_map.1 he
    exact ⟨f, hf, h⟩

theorem timesOf_clock {evs : List (Event L ℝ)} {times : List ℝ} (h : TimesOf evs times) {φ : ℝ → ℝ} (hφ : StrictMono φ) :
    TimesOf (evs.map (Units.Event.clock φ)) (times.map φ) := by
  refine ⟨?_, ?_⟩
  · rw [List.pairwise_map]
    exact h.1.imp fun hab => hφ hab
  · intro t
    rw [List.mem_map]
    constructor
    · rintro ⟨u, hu, rfl⟩
      obtain ⟨e, he, h⟩ := (h.2 u).1 hu
      refine ⟨_, List.mem_map_of_mem he, ?_⟩
      rcases h with rfl | rfl
      · exact .inl rfl
      · exact .inr rfl
    · rintro ⟨e, he, ht⟩
      obtain ⟨f, hf, rfl⟩ := List.mem_map.1 he
      rcases ht with rfl | rfl
      · exact ⟨f.start, (h.2 _).2 ⟨f, hf, .inl rfl⟩, rfl⟩
      · exact ⟨f.stop, (h.2 _).2 ⟨f, hf, .inr rfl⟩, rfl⟩

theorem getD_map {times : List ℝ} (φ : ℝ → ℝ) {k : Nat} (hk : k < times.length) : (times.map φ).getD k 0 = φ (times.getD k 0) := by
  rw [List.getD_eq_getElem?_getD, List.getD_eq_getElem?_getD, List.getElem?_map, List.getElem?_eq_getElem hk]
  rfl

theorem inContact_clock {evs : List (Event L ℝ)} (nodes : List L) {φ : ℝ → ℝ} (hφ : StrictMono φ) (u : ℝ) :
    InContact (evs.map (Units.Event.clock φ)) nodes (φ u) = InContact evs nodes u := by
  funext i j
  apply propext
  unfold InContact
  constructor
  · rintro ⟨e, he, h1, h2, h3⟩
    obtain ⟨f, hf, rfl⟩ := List.mem_map.1 he
    exact ⟨f, hf, hφ.le_iff_le.1 h1, hφ.lt_iff_lt.1 h2, h3⟩
  · rintro ⟨f, hf, h1, h2, h3⟩
    exact ⟨_, List.mem_map_of_mem hf, hφ.monotone h1, hφ h2, h3⟩

theorem affine_mono {c s : ℝ} (hc : 0 < c) : StrictMono (Units.affine c s) := by
  intro a b h
  unfold Units.affine
  have := mul_lt_mul_of_pos_left h hc
  linarith

theorem walkSteps_clock {evs : List (Event L ℝ)} (nodes : List L) (times : List ℝ) {c : ℝ} (hc : 0 < c) (s scale : ℝ) :
    (List.range (times.length - 1)).map (walkStep (evs.map (Units.Event.clock (Units.affine c s))) nodes (times.map (Units.affine c s)) (c * scale)) =
      (List.range (times.length - 1)).map (walkStep evs nodes times scale) := by
  refine List.map_congr_left fun k hk => ?_
  have hk := List.mem_range.1 hk
  unfold walkStep
  rw [getD_map _ (by omega), getD_map _ (by omega), inContact_clock nodes (affine_mono hc)]
  congr 1
  funext a b
  unfold Units.affine
  congr 2
  have := hc.ne'
  by_cases h0 : scale = 0
  · subst h0; simp
  · field_simp
    ring

theorem flowCov_clock {evs : List (Event L ℝ)} (nodes : List L) (times : List ℝ) {c : ℝ} (hc : 0 < c) (s scale : ℝ) (rev : Bool) :
    flowCov (evs.map (Units.Event.clock (Units.affine c s))) nodes (times.map (Units.affine c s)) (c * scale) rev =
      flowCov evs nodes times scale rev := by
  unfold flowCov
  simp only [List.length_map, List.length_range, walkSteps_clock nodes times hc]
  obtain ⟨Ms, hMs⟩ : ∃ Ms, Ms = (List.range (times.length - 1)).map (walkStep evs nodes times scale) := ⟨_, rfl⟩
  have hl : Ms.length = times.length - 1 := by rw [hMs]; simp
  rw [← hMs, ← hl]
  have e : flowSteps nodes.length rev Ms (times.map (Units.affine c s)) Ms.length =
      (flowSteps nodes.length rev Ms times Ms.length).map fun x => (c * x.1, x.2) := by
    unfold flowSteps
    cases rev
    · simp only [Bool.false_eq_true, if_false, List.map_map]
      refine List.map_congr_left fun k hk => ?_
      have hk := List.mem_range.1 hk
      rw [getD_map _ (by omega), getD_map _ (by omega)]
      simp only [Function.comp, Units.affine]
      congr 1
      ring
    · simp only [if_true, List.map_map]
      refine List.map_congr_left fun k hk => ?_
      have hk := List.mem_range.1 hk
      rw [getD_map _ (by omega), getD_map _ (by omega)]
      simp only [Function.comp, Units.affine]
      congr 1
      ring
  rw [e]
  funext i j
  unfold meanCov
  rw [List.map_map, List.map_map]
  have e1 : ((flowSteps nodes.length rev Ms times Ms.length).map
      ((fun e => e.1 * covAt nodes.length (fun _ => 1 / (nodes.length : ℝ)) e.2 i j) ∘ fun x => (c * x.1, x.2))).sum =
      c * ((flowSteps nodes.length rev Ms times Ms.length).map
        (fun e => e.1 * covAt nodes.length (fun _ => 1 / (nodes.length : ℝ)) e.2 i j)).sum := by
    rw [← List.sum_map_mul_left]
    congr 1
    refine List.map_congr_left fun x _ => ?_
    simp only [Function.comp]
    ring
  have e2 : ((flowSteps nodes.length rev Ms times Ms.length).map ((fun e => e.1) ∘ fun x => (c * x.1, x.2))).sum =
      c * ((flowSteps nodes.length rev Ms times Ms.length).map (fun e => e.1)).sum := by
    rw [← List.sum_map_mul_left]
    rfl
  rw [e1, e2, mul_div_mul_left _ _ hc.ne']

/-- **C131**, unit of time.  An analysis of the same contacts in another unit and with another
origin of time, with the time scales in the new unit: the communities are the same. -/
theorem C131_units (sf sf' : Nat → Bool) (sc0 : Sched) (par0 : Params ℝ) {w w' : FWorld (NetObj L) FlowObj} {scales : List Rat}
    {c : Rat} (hc0 : 0 < c) (s : ℝ)
    (h : Prepared w (scales.map some) none none) (hc : 0 ≤ w.current)
    (h' : Prepared w' ((scales.map (c * ·)).map some) none none) (hc' : 0 ≤ w'.current)
    {evs : List (Event L ℝ)} (hG : GoodContacts evs)
    (hpos : ∀ q ∈ scales, 0 < q) (kw : Kw L) (hkw : ∀ e, kw ≠ .network e) (rev : Bool) {q : Rat} (hq : q ∈ scales) :
    ∃ p, Holds (runF (ext sf sc0 par0) w (steps evs kw)) rev q p ∧
      Holds (runF (ext sf' sc0 par0) w' (steps (evs.map (Units.Event.clock (Units.affine (c : ℝ) s))) kw)) rev (c * q) p := by
  have hcr : (0 : ℝ) < (c : ℝ) := by exact_mod_cast hc0
  obtain ⟨nodes, hn⟩ : ∃ nodes, NodesOf evs nodes := ⟨_, nodesOf_spec evs⟩
  obtain ⟨times, ht⟩ : ∃ times, TimesOf evs times := ⟨_, timesOf_spec evs⟩
  have hq' : c * q ∈ scales.map (c * ·) := List.mem_map_of_mem hq
  have hpos' : ∀ r ∈ scales.map (c * ·), 0 < r := by
    intro r hr
    obtain ⟨q, hq, rfl⟩ := List.mem_map.1 hr
    exact mul_pos hc0 (hpos q hq)
  obtain ⟨p, a1, a2⟩ := C81_search sf sc0 par0 h hc hG (List.ne_nil_of_mem hq) hpos kw hkw hn ht rev hq
  obtain ⟨p', b1, b2⟩ := C81_search sf' sc0 par0 h' hc' (good_clock hG (affine_mono (s := s) hcr)) (List.ne_nil_of_mem hq') hpos' kw hkw
    (nodesOf_clock hn _) (timesOf_clock ht (affine_mono hcr)) rev hq'
  have hcast : ((c * q : Rat) : ℝ) = (c : ℝ) * (q : ℝ) := by push_cast; rfl
  rw [hcast] at b2
  have e : p = p' := searchOf_unique rfl
    (fun i _ j _ => by unfold walkOver; simp only [List.length_map, walkSteps_clock nodes times hcr])
    (fun i _ j _ => by rw [flowCov_clock nodes times hcr]) a2 b2
  subst e
  exact ⟨p, a1, b1⟩

section rename

variable {L' : Type} [LinearOrder L']

theorem good_rename {evs : List (Event L ℝ)} (h : GoodContacts evs) {f : L → L'} (hf : Function.Injective f) :
    GoodContacts (evs.map (Rename.Event.rename f)) := by
  refine ⟨by simpa using h.nonempty, ?_, ?_, ?_⟩
  · intro e he
    obtain ⟨g, hg, rfl⟩ := List.mem_map.1 he
    exact h.lasting g hg
  · intro e he
    obtain ⟨g, hg, rfl⟩ := List.mem_map.1 he
    exact fun hh => h.different g hg (hf hh)
  · rw [List.pairwise_map]
    exact h.separate.imp fun {e g} hef hp => hef (hp.imp (fun x => ⟨hf x.1, hf x.2⟩) (fun x => ⟨hf x.1, hf x.2⟩))

theorem nodesOf_rename {evs : List (Event L ℝ)} {nodes : List L} (h : NodesOf evs nodes) {f : L → L'} (hf : StrictMono f) :
    NodesOf (evs.map (Rename.Event.rename f)) (nodes.map f) := by
  refine ⟨?_, fun l => ?_⟩
  · rw [List.pairwise_map]
    exact h.1.imp fun hab => hf hab
  · rw [List.mem_map]
    constructor
    · rintro ⟨x, hx, rfl⟩
      obtain ⟨e, he, hh⟩ := (h.2 x).1 hx
      refine ⟨_, List.mem_map_of_mem he, ?_⟩
      rcases hh with rfl | rfl
      · exact .inl rfl
      · exact .inr rfl
    · rintro ⟨e, he, hh⟩
      obtain ⟨g, hg, rfl⟩ := List.mem_map.1 he
      rcases hh with rfl | rfl
      · exact ⟨g.src, (h.2 _).2 ⟨g, hg, .inl rfl⟩, rfl⟩
      · exact ⟨g.tgt, (h.2 _).2 ⟨g, hg, .inr rfl⟩, rfl⟩

theorem timesOf_rename {evs : List (Event L ℝ)} {times : List ℝ} (h : TimesOf evs times) (f : L → L') :
    TimesOf (evs.map (Rename.Event.rename f)) times := by
  refine ⟨h.1, fun l => (h.2 l).trans ?_⟩
  constructor
  · rintro ⟨e, he, h⟩
    exact ⟨_, List.mem_map_of_mem he, h⟩
  · rintro ⟨e, he, h⟩
    obtain ⟨g, hg, rfl⟩ := List.mem_map.1 he
    exact ⟨g, hg, h⟩

theorem inContact_rename {evs : List (Event L ℝ)} (nodes : List L) {f : L → L'} (hf : Function.Injective f) :
    InContact (evs.map (Rename.Event.rename f)) (nodes.map f) = InContact evs nodes := by
  funext u i j
  apply propext
  have key : ∀ (k : Nat) (x : L), (nodes.map f)[k]? = some (f x) ↔ nodes[k]? = some x := by
    intro k x
    rw [List.getElem?_map, Option.map_eq_some_iff]
    constructor
    · rintro ⟨y, hy, he⟩
      rw [hy, hf he]
    · intro h
      exact ⟨x, h, rfl⟩
  unfold InContact
  constructor
  · rintro ⟨e, he, h1, h2, h3⟩
    obtain ⟨g, hg, rfl⟩ := List.mem_map.1 he
    refine ⟨g, hg, h1, h2, ?_⟩
    simpa only [Rename.Event.rename, key] using h3
  · rintro ⟨g, hg, h1, h2, h3⟩
    refine ⟨_, List.mem_map_of_mem hg, h1, h2, ?_⟩
    simpa only [Rename.Event.rename, key] using h3

/-- **C131**, names.  An analysis of the same contacts between nodes with other names, in the same
order: the communities have the same positions in the list of nodes. -/
theorem C131_names (sf sf' : Nat → Bool) (sc0 : Sched) (par0 : Params ℝ) {w : FWorld (NetObj L) FlowObj}
    {w' : FWorld (NetObj L') FlowObj} {scales : List Rat} {f : L → L'} (hf : StrictMono f)
    (h : Prepared w (scales.map some) none none) (hc : 0 ≤ w.current) (h' : Prepared w' (scales.map some) none none) (hc' : 0 ≤ w'.current)
    {evs : List (Event L ℝ)} (hG : GoodContacts evs)
    (hpos : ∀ q ∈ scales, 0 < q) (sc : Sched) (par : Params ℝ) (rev : Bool) {q : Rat} (hq : q ∈ scales) :
    ∃ p, Holds (runF (ext sf sc0 par0) w (steps evs (.louvain sc par))) rev q p ∧
      Holds (runF (ext sf' sc0 par0) w' (steps (evs.map (Rename.Event.rename f)) (.louvain sc par))) rev q p := by
  obtain ⟨nodes, hn⟩ : ∃ nodes, NodesOf evs nodes := ⟨_, nodesOf_spec evs⟩
  obtain ⟨times, ht⟩ : ∃ times, TimesOf evs times := ⟨_, timesOf_spec evs⟩
  obtain ⟨p, a1, a2⟩ := C81_search sf sc0 par0 h hc hG (List.ne_nil_of_mem hq) hpos (.louvain sc par) (by simp) hn ht rev hq
  obtain ⟨p', b1, b2⟩ := C81_search sf' sc0 par0 h' hc' (good_rename hG hf.injective) (List.ne_nil_of_mem hq) hpos (.louvain sc par) (by simp)
    (nodesOf_rename hn hf) (timesOf_rename ht f) rev hq
  have hw : walkStep (evs.map (Rename.Event.rename f)) (nodes.map f) times q = walkStep evs nodes times q := by
    funext k
    unfold walkStep
    rw [inContact_rename nodes hf.injective, List.length_map]
  have e : p = p' := searchOf_unique (by simp) (fun i _ j _ => by unfold walkOver; rw [hw, List.length_map])
    (fun i _ j _ => by unfold flowCov; simp only [hw, List.length_map]) a2 b2
  subst e
  exact ⟨p, a1, b1⟩

end rename

/-! ## The hypotheses can be met -/

/-- Three contacts of three labels. -/
example : GoodContacts ([⟨1, 2, 0, 1⟩, ⟨2, 3, 1, 3⟩, ⟨3, 1, 2, 4⟩] : List (Event Nat ℝ)) ∧
    ([⟨1, 2, 0, 1⟩, ⟨2, 3, 1, 3⟩, ⟨3, 1, 2, 4⟩] : List (Event Nat ℝ)).map (mirror 4) = [⟨1, 2, 3, 4⟩, ⟨2, 3, 1, 3⟩, ⟨3, 1, 0, 2⟩] := by
  refine ⟨⟨by simp, ?_, by simp, by simp⟩, by simp [mirror]; norm_num⟩
  simp
  norm_num

/-- A new instance with the time scales 1 and 1/2. -/
example : ∃ w : FWorld (NetObj Nat) FlowObj, Prepared w ([1, 1 / 2].map some) none none ∧ 0 ≤ w.current := by
  obtain ⟨w, -, h1, h2⟩ := constructed (L := Nat) (scales := [1, 1 / 2]) (by simp) none none
  exact ⟨w, h1, h2⟩

example : Listing.SameContacts ([⟨1, 2, 0, 1⟩, ⟨2, 3, 1, 3⟩] : List (Event Nat ℝ)) [⟨3, 2, 1, 3⟩, ⟨1, 2, 0, 1⟩] := by
  unfold Listing.SameContacts Listing.Like
  simp

end Verif.Mirror
