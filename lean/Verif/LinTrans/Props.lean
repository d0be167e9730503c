import Verif.LinTrans.History

/-!
# Cumulative linear matrices and instantaneous contacts: properties C82 and C83
-/

set_option linter.dupNamespace false
set_option linter.unusedSectionVars false
set_option linter.unusedSimpArgs false

namespace Verif.LinTrans

open Verif.TempNet Verif.Trans Finset

variable {K : Type} [Field K] [LinearOrder K] [IsStrictOrderedRing K]

theorem resolves_lt {times : List K} (hne : times ≠ []) {k : Nat} {t : Option K}
    (h : Resolves times k (times.length - 1) t) : k < times.length := by
  cases t with
  | none =>
    have : k = times.length - 1 := h
    have := List.length_pos_iff.2 hne
    omega
  | some t => exact h.1

theorem times_ne {evs : List (Event Nat K)} (hne : evs ≠ []) : timesOf evs ≠ [] := by
  obtain ⟨e, he⟩ := List.exists_mem_of_ne_nil _ hne
  exact List.ne_nil_of_mem (start_mem_times he)

theorem starts_undirected {n : Nat} {evs : List (Event Nat K)} (hr : InRange n evs) (hnl : NoSelfLoops evs) (t : K) :
    Undirected n (Starts evs t) := by
  refine ⟨?_, ?_, ?_⟩
  · rintro i j ⟨e, he, hp, h1⟩
    exact ⟨e, he, hp.symm, h1⟩
  · rintro i ⟨e, he, hp, h1⟩
    apply hnl e he
    rcases hp with ⟨a, b⟩ | ⟨a, b⟩ <;> rw [a, b]
  · rintro i j ⟨e, he, hp, h1⟩
    have := hr e he
    rcases hp with ⟨a, b⟩ | ⟨a, b⟩
    · rw [← a, ← b]; exact this
    · rw [← a, ← b]; exact this.symm

theorem linearApprox_congr {n : Nat} {G G' : Nat → Nat → Prop} (h : (walk n G : Mat K) = walk n G') {t tS : K}
    {M : Mat K} (hM : LinearApprox n G t tS M) : LinearApprox n G' t tS M := by
  unfold LinearApprox at hM ⊢
  rw [← h]
  exact hM

/-- The lasting network: `fix_tau_k` as given, `False` if not. -/
theorem fix_lasting {net : Net K} (h : net.inst = false) (g : Option Bool) : net.fixTau g = some (g.getD false) := by
  unfold Net.fixTau
  rw [h]
  simp

/-! ## C82 -/

/-- **C82**.  Lasting, non-overlapping contacts.  After any session in which the options (window,
`fix_tau_k`, and for each rate and `t_s` direction and `save_intermediate`) stay the same,
computing the linear inter-event matrices and then their products raises nothing; there is one
inter-event matrix per interval of the window, the linear approximation of the contacts active in
it, and the stored cumulative matrices are their products in the order asked for, all
stochastic.  Missing: the default rate, options that change, and windows without interval with the
sparse option, for which the claim is false. -/
theorem C82_linear_partial {net : Net K} (hi : net.inst = false) (h : Proper net.lin.n net.lin.events)
    (hne : net.lin.events ≠ []) (hc : LabelSpec net.lin.n net.lin.comps)
    (hst : ∀ L : Mat K, ∀ i < net.lin.n, ∀ j < net.lin.n, L i j ≠ 0 → net.lin.stored L i j = true) (o : Opts K) :
    ∃ L, net.laplacians o.tStart o.tStop = .ok L ∧ ∀ (dense : Bool), (L.kStop ≤ L.kStart → dense = true) →
      ∀ calls : List (Call K), (∀ c ∈ calls, Uses o dense c) →
      ∀ (l tS : K) (sparse : Bool), 0 ≤ l → 1 < tS → (dense = true → sparse = false) →
      ∃ s1 s2 ms v, (after net calls).linInter net (some l) tS o.fix sparse o.tStart o.tStop = (s1, none) ∧
        s1.linTrans net (some l) tS (o.reverseLin l tS) (o.saveLin l tS) = (s2, none) ∧
        s2.interLin.lookup (l, tS) = some ms ∧ s2.TLin.lookup (l, tS) = some v ∧
        (L.kStop ≤ L.kStart → ms = [eye]) ∧
        (L.kStart < L.kStop → ms.length = L.kStop - L.kStart ∧
          ∀ (i : Nat) (hi : i < ms.length) (hk : L.kStart + i + 1 < (timesOf net.lin.events).length) (u : K),
            (timesOf net.lin.events)[L.kStart + i] ≤ u → u < (timesOf net.lin.events)[L.kStart + i + 1] →
            Stoch net.lin.n ms[i] ∧ LinearApprox net.lin.n (Active net.lin.events u)
              ((if o.fix = some true then 1 else (timesOf net.lin.events)[L.kStart + i + 1] -
                (timesOf net.lin.events)[L.kStart + i]) * l) tS ms[i]) ∧
        Products net.lin.n (o.reverseLin l tS) (o.saveLin l tS) ms v := by
  have hsorted : (timesOf net.lin.events).Pairwise (· < ·) := uniqueSorted_lt _
  obtain ⟨L, hL, -, hstop, hlen, hlap⟩ :=
    C33_active_contacts_partial h hne net.lin.startFirst o.tStart o.tStop
  have hL' : net.laplacians o.tStart o.tStop = .ok L := by
    unfold Net.laplacians
    rw [hi]
    simpa using hL
  have hkm := resolves_lt (times_ne hne) hstop
  have hD : Describes net L fun i => Active net.lin.events ((timesOf net.lin.events).getD (L.kStart + i) 0) := by
    refine ⟨hkm, hlen, fun i _ => active_undirected h _, ?_⟩
    intro i hi a b
    have h1 : L.kStart + i + 1 < (timesOf net.lin.events).length := by omega
    have h2 : L.kStart + i < (timesOf net.lin.events).length := by omega
    rw [hlap i hi h1 _ le_rfl (List.pairwise_iff_getElem.1 hsorted _ _ h2 h1 (by omega)), getD_elem _ _ h2]
  refine ⟨L, hL', fun dense hd calls hu l tS sparse h0 hS hsp => ?_⟩
  have hf := fix_lasting hi o.fix
  have hI := Inv.after hL' hf hD hc hst hd hu
  have h1 := hI.linInter hL' hf hD hc hst (l := some l) (by rintro x ⟨⟩; exact h0) hS (sparse := sparse)
    fun hh => hsp (hd hh)
  obtain ⟨e1, ms, e2⟩ := h1.2 l rfl
  have h2 := h1.1.linTrans (l := some l) (tS := tS) (r := o.reverseLin l tS) (v := o.saveLin l tS)
    (by rintro x ⟨⟩; exact ⟨rfl, rfl⟩)
  obtain ⟨e3, e4, e5⟩ := h2.2 l ms rfl e2
  have hR := h1.1.interLin _ _ _ e2
  refine ⟨_, _, ms, _, Prod.ext rfl e1, Prod.ext rfl e3, by rw [e5]; exact e2, e4, hR.1.2, ?_,
    product_right hR.2 (rightLin_stoch hR.1) _ _⟩
  intro hlt
  refine ⟨(hR.1.1 hlt).1, ?_⟩
  intro i hi' hk u hu1 hu2
  have h3 := (hR.1.1 hlt).2 i hi'
  have hi2 : i < L.laplacians.length := by rw [hlen, ← (hR.1.1 hlt).1]; exact hi'
  refine ⟨h3.1, ?_⟩
  have hw : (walk net.lin.n (Active net.lin.events ((timesOf net.lin.events).getD (L.kStart + i) 0)) : Mat K) =
      walk net.lin.n (Active net.lin.events u) := by
    funext a b
    unfold walk
    rw [← hD.lap i hi2, hlap i hi2 hk u hu1 hu2]
  have h4 := linearApprox_congr hw h3.2
  have htau : tauOf net L (o.fix.getD false) i = (if o.fix = some true then 1 else
      (timesOf net.lin.events)[L.kStart + i + 1] - (timesOf net.lin.events)[L.kStart + i]) := by
    unfold tauOf
    rw [getD_elem _ _ hk, getD_elem _ _ (by omega : L.kStart + i < (timesOf net.lin.events).length)]
    cases o.fix with
    | none => simp
    | some b => cases b <;> simp
  rw [← htau]
  exact h4

/-- The contacts 0-1 until 20 and 1-2 until 40, in a session with several rates. -/
example : let net : Net ℚ := ⟨⟨3, exLin, fun _ => true, exComps 3, fun L i j => decide (L i j ≠ 0)⟩, false, id⟩
    let o : Opts ℚ := ⟨none, none, none, fun _ => false, fun _ => true, fun _ _ => true, fun _ _ => true⟩
    net.inst = false ∧ Proper net.lin.n net.lin.events ∧ net.lin.events ≠ [] ∧ LabelSpec net.lin.n net.lin.comps ∧
    (∀ L : Mat ℚ, ∀ i < net.lin.n, ∀ j < net.lin.n, L i j ≠ 0 → net.lin.stored L i j = true) ∧
    ∀ c ∈ ([.linInter (some 1) 10 none true none none, .linInter (some 2) 10 none false none none,
      .linTrans (some 2) 10 true true, .linInter none 20 none true none none] : List (Call ℚ)), Uses o false c := by
  intro net o
  refine ⟨rfl, exLin_proper, by decide, exComps_spec 3, ?_, ?_⟩
  · intro L i _ j _ hij
    simp [net, hij]
  · intro c hc
    simp only [List.mem_cons, List.not_mem_nil, or_false] at hc
    rcases hc with rfl | rfl | rfl | rfl
    · exact ⟨by rintro x ⟨⟩; norm_num, by norm_num, rfl, by simp, rfl, rfl⟩
    · exact ⟨by rintro x ⟨⟩; norm_num, by norm_num, rfl, by simp, rfl, rfl⟩
    · rintro x ⟨⟩; exact ⟨rfl, rfl⟩
    · exact ⟨by rintro x ⟨⟩, by norm_num, rfl, by simp, rfl, rfl⟩

theorem median_some {l : List K} (h : l ≠ []) : ∃ m, median l = some m := by
  have hl : (l.insertionSort (· ≤ ·)).length = l.length := by simp
  have h0 : 0 < l.length := List.length_pos_iff.2 h
  unfold median
  dsimp only
  rw [if_neg (by omega)]
  split
  · exact ⟨_, List.getElem?_eq_getElem (by omega)⟩
  · rw [List.getElem?_eq_getElem (by omega : _ / 2 - 1 < (l.insertionSort (· ≤ ·)).length),
      List.getElem?_eq_getElem (by omega : _ / 2 < (l.insertionSort (· ≤ ·)).length)]
    exact ⟨_, rfl⟩

theorem defaultRate_some {times : List K} (h : 2 ≤ times.length) : ∃ r, defaultRate times = some r := by
  unfold defaultRate
  match times, h with
  | a :: b :: t, _ =>
    obtain ⟨m, hm⟩ := median_some (l := gaps (a :: b :: t)) (by simp [gaps])
    exact ⟨_, by rw [hm]; rfl⟩

theorem two_times {n : Nat} {evs : List (Event Nat K)} (h : Proper n evs) (hne : evs ≠ []) :
    2 ≤ (timesOf evs).length := by
  obtain ⟨e, he⟩ := List.exists_mem_of_ne_nil _ hne
  have h1 := start_mem_times he
  have h2 : e.stop ∈ timesOf evs := stop_mem_times he
  have h3 := h.lasting e he
  by_contra hlt
  have h4 : (timesOf evs).length ≤ 1 := by omega
  obtain ⟨i, hi, e1⟩ := List.getElem_of_mem h1
  obtain ⟨j, hj, e2⟩ := List.getElem_of_mem h2
  have : i = j := by omega
  subst this
  rw [e1] at e2
  exact absurd h3 (by rw [e2]; exact lt_irrefl _)

/-- **C82** is violated: with the default rate the linear inter-event matrices are computed, and
stored for the rate found, but asking for their products with the same default always raises
"Compute inter_T_lin first", whatever was called before. -/
theorem C82_default_rate_violated {net : Net K} (hi : net.inst = false) (h : Proper net.lin.n net.lin.events)
    (hne : net.lin.events ≠ []) (hc : LabelSpec net.lin.n net.lin.comps)
    (hst : ∀ L : Mat K, ∀ i < net.lin.n, ∀ j < net.lin.n, L i j ≠ 0 → net.lin.stored L i j = true) (tStart tStop : Option K)
    (tS : K) (hS : 1 < tS) (fix : Option Bool) :
    (∃ s ms r, NState.fresh.linInter net none tS fix false tStart tStop = (s, none) ∧
      s.interLin.lookup (r, tS) = some ms ∧ (∀ A ∈ ms, Stoch net.lin.n A) ∧ ms ≠ []) ∧
    ∀ (calls : List (Call K)) (reverse save : Bool),
      (after net calls).linTrans net none tS reverse save = (after net calls, some .interFirst) := by
  refine ⟨?_, fun _ _ _ => rfl⟩
  have hsorted : (timesOf net.lin.events).Pairwise (· < ·) := uniqueSorted_lt _
  obtain ⟨L, hL, -, hstop, hlen, hlap⟩ :=
    C33_active_contacts_partial h hne net.lin.startFirst tStart tStop
  have hL' : net.laplacians tStart tStop = .ok L := by
    unfold Net.laplacians
    rw [hi]
    simpa using hL
  have hkm := resolves_lt (times_ne hne) hstop
  have hD : Describes net L fun i => Active net.lin.events ((timesOf net.lin.events).getD (L.kStart + i) 0) := by
    refine ⟨hkm, hlen, fun i _ => active_undirected h _, ?_⟩
    intro i hi a b
    have h1 : L.kStart + i + 1 < (timesOf net.lin.events).length := by omega
    have h2 : L.kStart + i < (timesOf net.lin.events).length := by omega
    rw [hlap i hi h1 _ le_rfl (List.pairwise_iff_getElem.1 hsorted _ _ h2 h1 (by omega)), getD_elem _ _ h2]
  obtain ⟨r, hr⟩ := defaultRate_some (two_times h hne)
  let o : Opts K := ⟨tStart, tStop, fix, fun _ => true, fun _ => true, fun _ _ => true, fun _ _ => true⟩
  have hI := (Inv.fresh net o (fix.getD false) L _).linInter (o := o) hL' (fix_lasting hi fix) hD hc hst
    (l := none) (by rintro x ⟨⟩) hS (sparse := false) fun _ => rfl
  obtain ⟨e1, ms, e2⟩ := hI.2 r hr
  have hR := hI.1.interLin _ _ _ e2
  exact ⟨_, ms, r, Prod.ext rfl e1, e2, rightLin_stoch hR.1, hR.2⟩

/-- **C82** is violated: what was computed first stays.  A later call for the same rate and `t_s`
with any direction and any `save_intermediate` raises nothing and changes nothing. -/
theorem C82_cached {net : Net K} {s s' : NState K} {l tS : K} {reverse save : Bool}
    (h : s.linTrans net (some l) tS reverse save = (s', none)) (reverse' save' : Bool) :
    s'.linTrans net (some l) tS reverse' save' = (s', none) := by
  unfold NState.linTrans at h
  dsimp only at h
  cases hk : s.interLin.lookup (l, tS) with
  | none => rw [hk] at h; cases h
  | some ms =>
    rw [hk] at h
    dsimp only at h
    cases hT : s.TLin.lookup (l, tS) with
    | some v =>
      rw [hT] at h
      cases h
      unfold NState.linTrans
      simp only [hk, hT]
    | none =>
      rw [hT] at h
      cases ms with
      | nil => cases h
      | cons M ms =>
        cases h
        unfold NState.linTrans
        simp only [hk, List.lookup_cons_self]

/-- The network of the examples. -/
noncomputable def exNet : Net ℚ :=
  ⟨⟨3, exLin, fun _ => true, exComps 3, fun L i j => decide (L i j ≠ 0)⟩, false, id⟩

/-- **C82** is violated: after the products in time order, the products in reverse order are asked
for; no error is raised and those in time order are still there. -/
theorem C82_direction_violated : ∃ (s1 s2 s3 : NState ℚ) (ms : List (Mat ℚ)) (v : TVal ℚ),
    NState.fresh.linInter exNet (some (1 / 40)) 10 none false none none = (s1, none) ∧
    s1.linTrans exNet (some (1 / 40)) 10 false true = (s2, none) ∧
    s2.linTrans exNet (some (1 / 40)) 10 true true = (s3, none) ∧
    s3.interLin.lookup (1 / 40, 10) = some ms ∧ s3.TLin.lookup (1 / 40, 10) = some v ∧
    ¬ Products 3 true true ms v := by
  have key : (match NState.fresh.linInter exNet (some (1 / 40)) 10 none false none none with
    | (s1, none) =>
      match s1.linTrans exNet (some (1 / 40)) 10 false true with
      | (s2, none) =>
        match s2.linTrans exNet (some (1 / 40)) 10 true true with
        | (s3, none) =>
          match s3.interLin.lookup (1 / 40, 10), s3.TLin.lookup (1 / 40, 10) with
          | some [M1, M2], some (.list [_, T1]) => decide (T1 0 2 ≠ prod 3 [M2, M1] 0 2)
          | _, _ => false
        | _ => false
      | _ => false
    | _ => false) = true := by decide +kernel
  split at key
  · rename_i s1 h1
    split at key
    · rename_i s2 h2
      split at key
      · rename_i s3 h3
        split at key
        · rename_i M1 M2 T0 T1 h4 h5
          refine ⟨s1, s2, s3, _, _, h1, h2, h3, h4, h5, ?_⟩
          rintro ⟨-, -, h6⟩
          have := (h6 1 (by simp)).1 0 (by norm_num) 2 (by norm_num)
          exact absurd this (of_decide_eq_true key)
        · cases key
      · cases key
    · cases key
  · cases key

/-- **C82** is violated: the matrices made before an exception are taken for the whole list.  When
the linear inter-event matrices cannot all be computed, the next call with the same arguments
raises nothing and leaves what is there. -/
theorem C82_retry_violated {net : Net K} {s s' : NState K} {l : Option K} {tS : K} {fix : Option Bool}
    {sparse : Bool} {tStart tStop : Option K} {e : LinErr}
    (h : s.linInter net l tS fix sparse tStart tStop = (s', some (.lin e))) (he : ∀ x, e ≠ .laplacian x) :
    s'.linInter net l tS fix sparse tStart tStop = (s', none) := by
  have core : ∀ (s : NState K) (L : Laps K) (P : List (Mat K)) (f : Bool), s.laps = some L → s.pis = some P →
      s.linCore net L P l tS f sparse = (s', some (.lin e)) → s'.laps = some L ∧ s'.pis = some P ∧
        s'.linCore net L P l tS f sparse = (s', none) := by
    intro s L P f h1 h2 h3
    unfold NState.linCore at h3
    cases hr : net.rate l with
    | none => rw [hr] at h3; simp at h3
    | some r =>
      rw [hr] at h3
      dsimp only at h3
      cases hk : s.interLin.lookup (r, tS) with
      | some ms => rw [hk] at h3; simp at h3
      | none =>
        rw [hk] at h3
        simp only [Prod.mk.injEq] at h3
        rw [← h3.1]
        refine ⟨h1, h2, ?_⟩
        unfold NState.linCore
        simp only [hr, List.lookup_cons_self]
  have fin : ∀ (L : Laps K) (P : List (Mat K)) (f : Bool), net.fixTau fix = some f →
      (s'.laps = some L ∧ s'.pis = some P ∧ s'.linCore net L P l tS f sparse = (s', none)) →
      s'.linInter net l tS fix sparse tStart tStop = (s', none) := by
    rintro L P f hf ⟨a, b, c⟩
    unfold NState.linInter
    simp only [hf, a, b]
    exact c
  unfold NState.linInter at h
  cases hf : net.fixTau fix with
  | none => rw [hf] at h; simp at h
  | some f =>
    rw [hf] at h
    dsimp only at h
    cases hl : s.laps with
    | none =>
      rw [hl] at h
      dsimp only at h
      cases hL : net.laplacians tStart tStop with
      | error x =>
        rw [hL] at h
        simp only [Prod.mk.injEq, Option.some.injEq, NErr.lin.injEq] at h
        exact absurd h.2.symm (he x)
      | ok L =>
        rw [hL] at h
        exact fin L _ f hf (core _ L _ f rfl rfl h)
    | some L =>
      rw [hl] at h
      dsimp only at h
      cases hp : s.pis with
      | some P =>
        rw [hp] at h
        exact fin L P f hf (core _ L P f hl hp h)
      | none =>
        rw [hp] at h
        exact fin L _ f hf (core { s with laps := some L, pis := some (stationaries net.lin.n net.lin.comps L) }
          L _ f rfl rfl h)

/-- Such an exception: the window is extended after a first computation.  The products then are
those of one interval although the window has two. -/
theorem C82_truncated_violated : ∃ (s1 s2 s3 s4 s5 : NState ℚ) (L : Laps ℚ) (T : List (Mat ℚ)),
    NState.fresh.linInter exNet (some (1 / 40)) 10 none false (some 0) (some 20) = (s1, none) ∧
    s1.setLaps exNet none none = (s2, none) ∧ s2.laps = some L ∧ L.kStop - L.kStart = 2 ∧
    s2.linInter exNet (some (1 / 20)) 10 none false none none = (s3, some (.lin .indexError)) ∧
    s3.linInter exNet (some (1 / 20)) 10 none false none none = (s4, none) ∧
    s4.linTrans exNet (some (1 / 20)) 10 false true = (s5, none) ∧
    s5.TLin.lookup (1 / 20, 10) = some (.list T) ∧ T.length = 1 := by
  have key : (match NState.fresh.linInter exNet (some (1 / 40)) 10 none false (some 0) (some 20) with
    | (s1, none) =>
      match s1.setLaps exNet none none with
      | (s2, none) =>
        match s2.laps with
        | some L =>
          match s2.linInter exNet (some (1 / 20)) 10 none false none none with
          | (s3, some (.lin .indexError)) =>
            match s3.linInter exNet (some (1 / 20)) 10 none false none none with
            | (s4, none) =>
              match s4.linTrans exNet (some (1 / 20)) 10 false true with
              | (s5, none) =>
                match s5.TLin.lookup (1 / 20, 10) with
                | some (.list T) => decide (L.kStop - L.kStart = 2 ∧ T.length = 1)
                | _ => false
              | _ => false
            | _ => false
          | _ => false
        | _ => false
      | _ => false
    | _ => false) = true := by decide +kernel
  split at key
  · rename_i s1 h1
    split at key
    · rename_i s2 h2
      split at key
      · rename_i L hL
        split at key
        · rename_i s3 h3
          split at key
          · rename_i s4 h4
            split at key
            · rename_i s5 h5
              split at key
              · rename_i T hT
                have := of_decide_eq_true key
                exact ⟨s1, s2, s3, s4, s5, L, T, h1, h2, hL, this.1, h3, h4, h5, hT, this.2⟩
              · cases key
            · cases key
          · cases key
        · cases key
      · cases key
    · cases key
  · cases key

end Verif.LinTrans
