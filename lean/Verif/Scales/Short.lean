import Verif.Scales.Long
import Verif.Scales.Mix

/-!
# C135: with a short time scale lasting contacts give the connected groups
-/

set_option linter.dupNamespace false
set_option linter.unusedSectionVars false

namespace Verif.Scales

open Verif.TempNet Verif.Trans Verif.Flow Verif.EndToEnd Verif.Average Verif.Groups Verif.Mirror Verif.Louvain Verif.FlowStability
open Verif.Partition (Together)

variable {L : Type} [LinearOrder L]

theorem laplacian_neg {n : Nat} {G : Nat → Nat → Prop} {i j : Nat} (hj : j < n) (hij : i ≠ j) (h : G i j) :
    (walkLaplacian n G i j : ℝ) < 0 := by
  classical
  have hd : degree n G i ≠ 0 := by
    unfold degree
    rw [Finset.card_ne_zero]
    exact ⟨j, Finset.mem_filter.2 ⟨Finset.mem_range.2 hj, h⟩⟩
  unfold walkLaplacian
  rw [if_neg hij, if_neg hd, if_pos h, zero_sub, neg_lt_zero]
  have : (0 : ℝ) < degree n G i := by exact_mod_cast Nat.pos_of_ne_zero hd
  positivity

theorem linked_mem {evs : List (Event L ℝ)} {nodes : List L} (hn : NodesOf evs nodes) {x y : L} (h : Linked evs x y) : x ∈ nodes ↔ y ∈ nodes := by
  induction h with
  | rel x y h =>
    obtain ⟨e, he, rfl, rfl⟩ := h
    exact ⟨fun _ => (hn.2 _).2 ⟨e, he, .inr rfl⟩, fun _ => (hn.2 _).2 ⟨e, he, .inl rfl⟩⟩
  | refl => rfl
  | symm _ _ _ ih => exact ih.symm
  | trans _ _ _ _ _ h1 h2 => exact h1.trans h2

theorem conn_symm {n : Nat} {G : Nat → Nat → Prop} (hG : ∀ i j, G i j → G j i) (hne : ∀ i, ¬ G i i) {i j : Nat}
    (h : Conn n (walkLaplacian n G) i j) : Conn n (walkLaplacian n G) j i := by
  classical
  induction h with
  | refl => exact .refl
  | tail _ hs ih =>
    rename_i a b _
    obtain ⟨ha, hb, hab⟩ := hs
    refine .head ⟨hb, ha, ?_⟩ ih
    have hGab : G a b ∧ a ≠ b := by
      unfold walkLaplacian at hab
      split_ifs at hab with h1 h2 h3 h4 h5 <;> first
        | (subst h1; exact absurd (by assumption) (hne _))
        | exact ⟨by assumption, h1⟩
        | (exfalso; norm_num at hab)
    exact laplacian_neg ha hGab.2.symm (hG _ _ hGab.1)

theorem linked_conn {evs : List (Event L ℝ)} (hG : GoodContacts evs) {a b : ℝ} (hab : ∀ e ∈ evs, e.start = a ∧ e.stop = b) {nodes : List L}
    (hn : NodesOf evs nodes) {x y : L} (h : Linked evs x y) : ∀ i j, nodes[i]? = some x → nodes[j]? = some y →
      Conn nodes.length (walkLaplacian nodes.length (InContact evs nodes a)) i j := by
  have hnd : nodes.Nodup := hn.1.imp ne_of_lt
  have huniq : ∀ (i j : Nat) (x : L), nodes[i]? = some x → nodes[j]? = some x → i = j := by
    intro i j x hi hj
    obtain ⟨h1, h2⟩ := List.getElem?_eq_some_iff.1 hi
    obtain ⟨h3, h4⟩ := List.getElem?_eq_some_iff.1 hj
    exact (List.Nodup.getElem_inj_iff hnd).1 (h2.trans h4.symm)
  have hsymm : ∀ i j, InContact evs nodes a i j → InContact evs nodes a j i := by
    rintro i j ⟨e, he, h1, h2, h3⟩
    exact ⟨e, he, h1, h2, h3.symm⟩
  have hirr : ∀ i, ¬ InContact evs nodes a i i := by
    rintro i ⟨e, he, -, -, ⟨h1, h2⟩ | ⟨h1, h2⟩⟩ <;> exact hG.different e he (Option.some.inj (h1.symm.trans h2))
  induction h with
  | rel x y h =>
    obtain ⟨e, he, rfl, rfl⟩ := h
    intro i j hi hj
    have hin : InContact evs nodes a i j := ⟨e, he, (hab e he).1.le, by rw [(hab e he).2, ← (hab e he).1, ← (hab e he).2]; exact hG.lasting e he, .inl ⟨hi, hj⟩⟩
    have hjn := (List.getElem?_eq_some_iff.1 hj).1
    refine .single ⟨(List.getElem?_eq_some_iff.1 hi).1, hjn, laplacian_neg hjn ?_ hin⟩
    rintro rfl
    exact hirr _ hin
  | refl x =>
    intro i j hi hj
    rw [huniq i j x hi hj]
    exact .refl
  | symm _ _ _ ih => exact fun i j hi hj => conn_symm hsymm hirr (ih j i hj hi)
  | trans x y z h1 _ ih1 ih2 =>
    intro i j hi hj
    have hy := (linked_mem hn h1).1 (List.mem_of_getElem? hi)
    obtain ⟨k, hk⟩ := List.mem_iff_getElem?.1 hy
    exact (ih1 i k hi hk).trans (ih2 k j hk hj)

theorem lasting_times {evs : List (Event L ℝ)} (hG : GoodContacts evs) {a b : ℝ} (hab : ∀ e ∈ evs, e.start = a ∧ e.stop = b) :
    a < b ∧ TimesOf evs [a, b] := by
  obtain ⟨e, he⟩ := List.exists_mem_of_ne_nil _ hG.nonempty
  have hlt : a < b := by rw [← (hab e he).1, ← (hab e he).2]; exact hG.lasting e he
  refine ⟨hlt, by simp [hlt], fun t => ?_⟩
  simp only [List.mem_cons, List.not_mem_nil, or_false]
  constructor
  · rintro (rfl | rfl)
    · exact ⟨e, he, .inl (hab e he).1.symm⟩
    · exact ⟨e, he, .inr (hab e he).2.symm⟩
  · rintro ⟨f, hf, h | h⟩
    · exact .inl (h.trans (hab f hf).1)
    · exact .inr (h.trans (hab f hf).2)

theorem fresh_part {c : Clu ℝ} (hfresh : FreshDefault c) : Partition.Consistent c.part ∧ c.part.numNodes = c.n := by
  unfold FreshDefault mkClu at hfresh
  obtain ⟨q, hq, h1, h2, h3⟩ := mk'_none c.n false
  rw [hq] at hfresh
  split at hfresh
  · injection hfresh with hfresh
    have hpart : c.part = q := by rw [← hfresh]
    rw [hpart]
    exact ⟨h1, h2⟩
  · simp at hfresh

/-- The walk over lasting contacts. -/
noncomputable def still (evs : List (Event L ℝ)) (nodes : List L) (a t : ℝ) : Mat ℝ :=
  evo nodes.length (walkLaplacian nodes.length (InContact evs nodes a)) t

theorem lasting_flow (evs : List (Event L ℝ)) (nodes : List L) {a b : ℝ} (hab : a < b) (scale : ℝ) (rev : Bool) :
    EqOn nodes.length (flowCov evs nodes [a, b] scale rev)
      (covAt nodes.length (fun _ => 1 / (nodes.length : ℝ)) (still evs nodes a ((b - a) * (1 / scale)))) ∧
    EqOn nodes.length (walkOver evs nodes [a, b] scale rev) (still evs nodes a ((b - a) * (1 / scale))) := by
  have hd : b - a ≠ 0 := (sub_pos.2 hab).ne'
  have hP : EqOn nodes.length (prod nodes.length [walkStep evs nodes [a, b] scale 0]) (still evs nodes a ((b - a) * (1 / scale))) := mul_eye _
  constructor
  · intro i hi j hj
    have e1 : flowCov evs nodes [a, b] scale rev i j =
        covAt nodes.length (fun _ => 1 / (nodes.length : ℝ)) (prod nodes.length [walkStep evs nodes [a, b] scale 0]) i j := by
      have : ∀ z : ℝ, ((b - a) * z + 0) / ((b - a) + 0) = z := fun z => by rw [add_zero, add_zero, mul_div_cancel_left₀ _ hd]
      cases rev <;> exact this _
    rw [e1, covAt_congr _ hP i hi j hj]
  · cases rev <;> exact hP

theorem size_lt {α : Type} {n : Nat} {grp : Nat → α} (i : Nat) {j : Nat} (hj : j < n) (h : grp j ≠ grp i) : size n grp i < n := by
  classical
  unfold size
  have : ((Finset.range n).filter fun a => grp a = grp i).card < (Finset.range n).card := by
    refine Finset.card_lt_card ⟨Finset.filter_subset _ _, fun hs => ?_⟩
    exact h (Finset.mem_filter.1 (hs (Finset.mem_range.2 hj))).2
  rwa [Finset.card_range] at this

theorem size_eq {α : Type} {n : Nat} {grp : Nat → α} (i : Nat) (h : ∀ j < n, grp j = grp i) : size n grp i = n := by
  classical
  unfold size
  have : (Finset.range n).filter (fun a => grp a = grp i) = Finset.range n :=
    Finset.filter_true_of_mem fun a ha => h a (Finset.mem_range.1 ha)
  rw [this, Finset.card_range]

theorem size_pos {α : Type} {n : Nat} {grp : Nat → α} {i : Nat} (hi : i < n) : 0 < size n grp i := by
  classical
  unfold size
  exact Finset.card_pos.2 ⟨i, Finset.mem_filter.2 ⟨Finset.mem_range.2 hi, rfl⟩⟩

/-- The walk over lasting contacts mixes the labels of a group. -/
theorem still_mix {evs : List (Event L ℝ)} (hG : GoodContacts evs) {a b : ℝ} (hab : ∀ e ∈ evs, e.start = a ∧ e.stop = b)
    {nodes : List L} (hn : NodesOf evs nodes) {t : ℝ} (ht : 0 < t) :
    Stoch nodes.length (still evs nodes a t) ∧ Closed nodes.length (still evs nodes a t) (group evs nodes) ∧
    ∀ i < nodes.length, ∀ j < nodes.length, group evs nodes i = group evs nodes j → 0 < still evs nodes a t i j := by
  have hlap := walkLaplacian_lap nodes.length (InContact evs nodes a)
  refine ⟨evo_stoch hlap ht.le, evo_closed (laplacian_closed evs nodes a) t, fun i hi j hj hg => ?_⟩
  have hx := List.getElem?_eq_getElem hi
  have hy := List.getElem?_eq_getElem hj
  exact evo_pos hlap (fun i _ => laplacian_diag _ _ i) hi (linked_conn hG hab hn ((group_eq hx hy).1 hg) i j hx hy) ht

/-- **C135**, covariances.  Contacts that all last from `a` to `b`.  For every short time scale: if
chains of contacts link all labels, all covariances are negligible; otherwise the covariance of two
labels is positive if a chain of contacts links them and negative if not. -/
theorem C135_covariance {evs : List (Event L ℝ)} (hG : GoodContacts evs) {a b : ℝ} (hab : ∀ e ∈ evs, e.start = a ∧ e.stop = b)
    {nodes : List L} (hn : NodesOf evs nodes) :
    ∃ δ : ℝ, 0 < δ ∧ ∀ scale : ℝ, 0 < scale → scale < δ → ∀ rev : Bool,
      ((∀ x ∈ nodes, ∀ y ∈ nodes, Linked evs x y) → ∀ i < nodes.length, ∀ j < nodes.length,
        |flowCov evs nodes [a, b] scale rev i j| < 1 / 10 ^ 6 / (nodes.length : ℝ) ^ 2) ∧
      ((∃ x ∈ nodes, ∃ y ∈ nodes, ¬ Linked evs x y) → ∀ (i j : Nat) (x y : L), nodes[i]? = some x → nodes[j]? = some y →
        (Linked evs x y → 3 / 4 / (nodes.length : ℝ) ^ 3 ≤ flowCov evs nodes [a, b] scale rev i j) ∧
        (¬ Linked evs x y → flowCov evs nodes [a, b] scale rev i j = -(1 / (nodes.length : ℝ) ^ 2))) := by
  obtain ⟨hlt, ht⟩ := lasting_times hG hab
  have hn2 := nodes_two hG hn
  obtain ⟨n, hnn⟩ : ∃ n, n = nodes.length := ⟨_, rfl⟩
  have hnr : (2 : ℝ) ≤ n := by rw [hnn]; exact_mod_cast hn2
  have hlap := walkLaplacian_lap nodes.length (InContact evs nodes a)
  obtain ⟨η, hη⟩ : ∃ η : ℝ, η = 1 / (4 * 10 ^ 6 * (n + 1)) := ⟨_, rfl⟩
  have hη0 : 0 < η := by rw [hη]; positivity
  have hηn : 4 * 10 ^ 6 * (n + 1) * η = 1 := by rw [hη]; field_simp
  have hη1 : η < 1 / 10 ^ 7 := by nlinarith
  obtain ⟨t0, ht0, hmix⟩ := evo_mix hlap (laplacian_closed evs nodes a) (fun i hi j hj hg => (still_mix hG hab hn one_pos).2.2 i hi j hj hg) hη0
  refine ⟨(b - a) / t0, div_pos (sub_pos.2 hlt) ht0, fun scale hs hlt' rev => ?_⟩
  obtain ⟨t, htt⟩ : ∃ t, t = (b - a) * (1 / scale) := ⟨_, rfl⟩
  have htp : 0 < t := by rw [htt]; exact mul_pos (sub_pos.2 hlt) (by positivity)
  have ht1 : t0 ≤ t := by
    rw [htt, mul_one_div, le_div_iff₀ hs]
    rw [lt_div_iff₀ ht0] at hlt'
    linarith
  obtain ⟨hst, hcl, -⟩ := still_mix hG hab hn htp
  have hcov := fun i hi j hj hg => cov_mix hst hcl hη0 (by linarith) (hmix t ht1) (i := i) (j := j) hi hj hg
  have hflow := (lasting_flow evs nodes hlt scale rev).1
  rw [← htt] at hflow
  constructor
  · intro hall i hi j hj
    have hgr : ∀ i < nodes.length, ∀ j < nodes.length, group evs nodes i = group evs nodes j := fun i hi j hj =>
      (group_eq (List.getElem?_eq_getElem hi) (List.getElem?_eq_getElem hj)).2 (hall _ (List.getElem_mem hi) _ (List.getElem_mem hj))
    obtain ⟨h1, h2⟩ := hcov i hi j hj (hgr i hi j hj)
    rw [size_eq i fun k hk => hgr k hk i hi] at h1 h2
    rw [hflow i hi j hj]
    rw [← hnn] at h1 h2 ⊢
    obtain ⟨z, hz⟩ : ∃ z, z = covAt n (fun _ => 1 / (n : ℝ)) (still evs nodes a t) i j := ⟨_, rfl⟩
    rw [← hz] at h1 h2 ⊢
    have hn0 : (0 : ℝ) < n := by linarith
    have hη' : 0 < 1 - η := by linarith
    have e1 : (1 - η) / ((n : ℝ) * n) - 1 / (n : ℝ) ^ 2 = -(η / (n : ℝ) ^ 2) := by field_simp; ring
    have e2 : 1 / ((n : ℝ) * n * (1 - η)) - 1 / (n : ℝ) ^ 2 = η / (1 - η) / (n : ℝ) ^ 2 := by field_simp; ring
    rw [e1] at h1
    rw [e2] at h2
    have b1 : η / (n : ℝ) ^ 2 < 1 / 10 ^ 6 / (n : ℝ) ^ 2 := div_lt_div_of_pos_right (by linarith) (by positivity)
    have b2 : η / (1 - η) / (n : ℝ) ^ 2 < 1 / 10 ^ 6 / (n : ℝ) ^ 2 := by
      refine div_lt_div_of_pos_right ?_ (by positivity)
      rw [div_lt_iff₀ hη']
      linarith
    rw [abs_lt]
    constructor <;> linarith
  · rintro ⟨u, hu, v, hv, huv⟩ i j x y hx hy
    have hi := (List.getElem?_eq_some_iff.1 hx).1
    have hj := (List.getElem?_eq_some_iff.1 hy).1
    constructor
    · intro hxy
      obtain ⟨h1, -⟩ := hcov i hi j hj ((group_eq hx hy).2 hxy)
      have hsz : size nodes.length (group evs nodes) i < nodes.length := by
        obtain ⟨k, hk⟩ := List.mem_iff_getElem?.1 hu
        obtain ⟨l, hl⟩ := List.mem_iff_getElem?.1 hv
        by_cases hki : group evs nodes k = group evs nodes i
        · refine size_lt i (List.getElem?_eq_some_iff.1 hl).1 fun hli => huv ?_
          exact (group_eq hk hl).1 (hki.trans hli.symm)
        · exact size_lt i (List.getElem?_eq_some_iff.1 hk).1 hki
      have hs0 := size_pos (grp := group evs nodes) hi
      rw [hflow i hi j hj]
      refine le_trans ?_ h1
      obtain ⟨c, hc⟩ : ∃ c, c = size nodes.length (group evs nodes) i := ⟨_, rfl⟩
      rw [← hc] at hsz hs0 ⊢
      rw [← hnn] at hsz ⊢
      have hc1 : (c : ℝ) + 1 ≤ n := by exact_mod_cast hsz
      have hc0 : (0 : ℝ) < c := by exact_mod_cast hs0
      have hn0 : (0 : ℝ) < n := by linarith
      have e : (1 - η) / ((n : ℝ) * c) - 1 / (n : ℝ) ^ 2 - 3 / 4 / (n : ℝ) ^ 3 = ((1 - η) * n ^ 2 - c * n - 3 / 4 * c) / (n ^ 3 * c) := by
        field_simp
      have : 0 ≤ ((1 - η) * n ^ 2 - c * n - 3 / 4 * c) / (n ^ 3 * c) := by
        refine div_nonneg ?_ (by positivity)
        have h4 : η * n ^ 2 ≤ n / 4 := by
          have : η * (n + 1) ≤ 1 / 4 := by nlinarith
          nlinarith
        nlinarith
      linarith
    · intro hxy
      exact flowCov_apart ht.1 (by simp) scale rev hi hj fun hg => hxy ((group_eq hx hy).1 hg)

/-- **C135**, the whole analysis.  Contacts that all last from `a` to `b`.  There is a time below
which every time scale yields exactly the groups of labels that chains of contacts link, forward and
backward in time, for all random choices, if the threshold of the search is at most one over the cube
of the number of labels and its limits allow for two sweeps per level and as many levels as labels. -/
theorem C135_groups {evs : List (Event L ℝ)} (hG : GoodContacts evs) {a b : ℝ} (hab : ∀ e ∈ evs, e.start = a ∧ e.stop = b)
    {nodes : List L} (hn : NodesOf evs nodes) :
    ∃ δ : ℝ, 0 < δ ∧ ∀ (sf : Nat → Bool) (sc0 : Sched) (par0 : Params ℝ) (w : FWorld (NetObj L) FlowObj) (scales : List Rat),
      Prepared w (scales.map some) none none → 0 ≤ w.current → scales ≠ [] → (∀ q ∈ scales, 0 < q) →
      ∀ kw : Kw L, (∀ e, kw ≠ .network e) → 0 ≤ (used sc0 par0 kw).2.thr → (used sc0 par0 kw).2.thr * (nodes.length : ℝ) ^ 3 ≤ 1 →
      2 ≤ (used sc0 par0 kw).2.nSub → nodes.length ≤ (used sc0 par0 kw).2.nMeta →
      ∀ (rev : Bool) (q : Rat), q ∈ scales → (q : ℝ) < δ →
      ∃ p, Holds (runF (ext sf sc0 par0) w (steps evs kw)) rev q p ∧
        ∀ (i j : Nat) (x y : L), nodes[i]? = some x → nodes[j]? = some y → (Together p.clusters i j ↔ Linked evs x y) := by
  obtain ⟨hlt, ht⟩ := lasting_times hG hab
  have hn2 := nodes_two hG hn
  have hnr : (2 : ℝ) ≤ nodes.length := by exact_mod_cast hn2
  obtain ⟨δ, hδ, hcov⟩ := C135_covariance hG hab hn
  refine ⟨δ, hδ, fun sf sc0 par0 w scales h hc hne hpos kw hkw hthr hthr3 hsub hmeta rev q hq hqδ => ?_⟩
  obtain ⟨p, hp, c, k, hm, hl⟩ := C81_search sf sc0 par0 h hc hG hne hpos kw hkw hn ht rev hq
  refine ⟨p, hp, fun i j x y hx hy => ?_⟩
  have hq0 : (0 : ℝ) < q := by exact_mod_cast hpos q hq
  have hcc : c.n = nodes.length ∧ c.T = walkOver evs nodes [a, b] q rev ∧ c.S = flowCov evs nodes [a, b] q rev := by
    unfold mkClu at hm
    split at hm
    · split at hm
      · cases hm
      · cases hm
        exact ⟨rfl, rfl, rfl⟩
    · cases hm
  have hfresh : FreshDefault c := by
    unfold FreshDefault
    rw [hcc.1, hcc.2.1, hcc.2.2]
    exact hm
  obtain ⟨hone, htwo⟩ := hcov q hq0 hqδ rev
  have hi := (List.getElem?_eq_some_iff.1 hx).1
  have hj := (List.getElem?_eq_some_iff.1 hy).1
  by_cases hall : ∀ x ∈ nodes, ∀ y ∈ nodes, Linked evs x y
  · have hz : sIsZero c.n c.S := by
      rw [hcc.1, hcc.2.2]
      exact hone hall
    obtain ⟨d1, d2⟩ := fresh_part hfresh
    obtain ⟨p', h1, -, h2, -⟩ := C29_negligible_covariance_partial (used sc0 par0 kw).1 (used sc0 par0 kw).2 c d1 d2
      (by rw [hcc.1]; omega) hz
    rw [h1] at hl
    cases hl
    exact ⟨fun _ => hall _ (List.mem_of_getElem? hx) _ (List.mem_of_getElem? hy), fun _ => h2 i (by rw [hcc.1]; exact hi) j (by rw [hcc.1]; exact hj)⟩
  · push Not at hall
    have hall' : ∃ x ∈ nodes, ∃ y ∈ nodes, ¬ Linked evs x y := hall
    have hS := htwo hall'
    have htp : 0 < (b - a) * (1 / (q : ℝ)) := mul_pos (sub_pos.2 hlt) (by positivity)
    obtain ⟨hst, hcl, hps⟩ := still_mix hG hab hn htp
    have hT := (lasting_flow evs nodes hlt (q : ℝ) rev).2
    have hT0 : ∀ i < nodes.length, ∀ j < nodes.length, 0 ≤ walkOver evs nodes [a, b] q rev i j := by
      intro i hi j hj
      rw [hT i hi j hj]
      exact (hst i hi).1 j hj
    have hchain : ∀ i j, i < nodes.length → (Chain nodes.length (walkOver evs nodes [a, b] q rev) i j →
        j < nodes.length ∧ group evs nodes i = group evs nodes j) := by
      intro i j hi hch
      induction hch with
      | refl => exact ⟨hi, rfl⟩
      | tail _ hs ih =>
        obtain ⟨h1, h2, h3⟩ := hs
        refine ⟨h2, ih.2.trans ?_⟩
        rcases h3 with h3 | h3
        · rw [hT _ h1 _ h2] at h3
          exact hcl _ h1 _ h2 h3.ne'
        · rw [hT _ h2 _ h1] at h3
          exact (hcl _ h2 _ h1 h3.ne').symm
    have key := C135_search (used sc0 par0 kw).1 (used sc0 par0 kw).2 hthr ?_ hsub c (by rw [hcc.1]; exact hmeta) hfresh ?_ ?_ ?_ k p hl i j
      (by rw [hcc.1]; exact hi) (by rw [hcc.1]; exact hj)
    · rw [key, hcc.1, hcc.2.1]
      constructor
      · exact fun hch => (group_eq hx hy).1 (hchain i j hi hch).2
      · intro hxy
        refine .single ⟨hi, hj, .inl ?_⟩
        rw [hT i hi j hj]
        exact hps i hi j hj ((group_eq hx hy).2 hxy)
    · by_contra hc1
      have : (2 : ℝ) ^ 3 ≤ (nodes.length : ℝ) ^ 3 := pow_le_pow_left₀ (by norm_num) hnr 3
      nlinarith
    · intro hz
      obtain ⟨u, hu, v, hv, huv⟩ := hall'
      obtain ⟨k', hk⟩ := List.mem_iff_getElem?.1 hu
      obtain ⟨l, hl'⟩ := List.mem_iff_getElem?.1 hv
      have hz' := hz k' (by rw [hcc.1]; exact (List.getElem?_eq_some_iff.1 hk).1) l (by rw [hcc.1]; exact (List.getElem?_eq_some_iff.1 hl').1)
      rw [hcc.2.2, (hS k' l u v hk hl').2 huv, hcc.1, abs_neg, abs_of_pos (by positivity)] at hz'
      have := (div_lt_div_iff_of_pos_right (by positivity : (0 : ℝ) < (nodes.length : ℝ) ^ 2)).1 hz'
      norm_num at this
    · rw [hcc.1, hcc.2.1]
      exact hT0
    · rw [hcc.1, hcc.2.1, hcc.2.2]
      intro i hi j hj hij hch
      have hg := (hchain i j hi hch).2
      have hx := List.getElem?_eq_getElem hi
      have hy := List.getElem?_eq_getElem hj
      have hl1 := (group_eq hx hy).1 hg
      have h1 := (hS i j _ _ hx hy).1 hl1
      have h2 := (hS j i _ _ hy hx).1 (.symm _ _ hl1)
      have hn3 : (0 : ℝ) < (nodes.length : ℝ) ^ 3 := by positivity
      have h3 : (used sc0 par0 kw).2.thr ≤ 1 / (nodes.length : ℝ) ^ 3 := by
        rw [le_div_iff₀ hn3]
        exact hthr3
      have h4 : 1 / (nodes.length : ℝ) ^ 3 < 3 / 4 / (nodes.length : ℝ) ^ 3 + 3 / 4 / (nodes.length : ℝ) ^ 3 := by
        rw [← add_div]
        exact div_lt_div_of_pos_right (by norm_num) hn3
      linarith

/-- The hypotheses are met: two contacts of four labels, from 0 to 10, with labels that are not linked. -/
example : GoodContacts ([⟨1, 2, 0, 10⟩, ⟨3, 4, 0, 10⟩] : List (Event Nat ℝ)) ∧
    NodesOf ([⟨1, 2, 0, 10⟩, ⟨3, 4, 0, 10⟩] : List (Event Nat ℝ)) [1, 2, 3, 4] ∧
    (∀ e ∈ ([⟨1, 2, 0, 10⟩, ⟨3, 4, 0, 10⟩] : List (Event Nat ℝ)), e.start = 0 ∧ e.stop = 10) ∧
    Linked ([⟨1, 2, 0, 10⟩, ⟨3, 4, 0, 10⟩] : List (Event Nat ℝ)) 1 2 ∧
    ¬ Linked ([⟨1, 2, 0, 10⟩, ⟨3, 4, 0, 10⟩] : List (Event Nat ℝ)) 1 3 := by
  refine ⟨⟨by simp, by simp, by simp, by simp⟩, ⟨by simp, fun l => by simp; omega⟩, by simp, .rel _ _ ⟨⟨1, 2, 0, 10⟩, by simp, rfl, rfl⟩, fun h => ?_⟩
  have : ∀ x y, Linked ([⟨1, 2, 0, 10⟩, ⟨3, 4, 0, 10⟩] : List (Event Nat ℝ)) x y → (x ≤ 2 ↔ y ≤ 2) := by
    intro x y h
    induction h with
    | rel x y h =>
      obtain ⟨e, he, rfl, rfl⟩ := h
      simp at he
      rcases he with rfl | rfl <;> simp
    | refl => rfl
    | symm _ _ _ ih => exact ih.symm
    | trans _ _ _ _ _ h1 h2 => exact h1.trans h2
  have := this 1 3 h
  omega

end Verif.Scales
