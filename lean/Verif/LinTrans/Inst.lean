import Verif.LinTrans.Props
import Verif.TempNet.Inst

/-!
# Instantaneous contacts: property C83
-/

set_option linter.dupNamespace false
set_option linter.unusedSectionVars false
set_option linter.unusedSimpArgs false

namespace Verif.LinTrans

open Verif.TempNet Verif.Trans Finset

section
variable {K : Type} [Field K] [LinearOrder K] [IsStrictOrderedRing K]

theorem inst_describes {net : Net K} (hi : net.inst = true) (hr : InRange net.lin.n net.lin.events)
    (hnl : NoSelfLoops net.lin.events) (hne : net.lin.events ≠ []) (tStart tStop : Option K) :
    ∃ L, net.laplacians tStart tStop = .ok L ∧
      Resolves (timesOf net.lin.events) L.kStart 0 tStart ∧
      Resolves (timesOf net.lin.events) L.kStop ((timesOf net.lin.events).length - 1) tStop ∧
      Describes net L fun i => Starts net.lin.events ((timesOf net.lin.events).getD (L.kStart + i) 0) := by
  obtain ⟨L, hL, hstart, hstop, hlen, hlap⟩ := C57_instantaneous_laplacians hr hnl hne net.lin.startFirst tStart tStop
  have hkm := resolves_lt (times_ne hne) hstop
  refine ⟨L, ?_, hstart, hstop, hkm, hlen, fun i _ => starts_undirected hr hnl _, ?_⟩
  · unfold Net.laplacians
    rw [hi]
    simpa using hL
  · intro i hi a b
    have h2 : L.kStart + i < (timesOf net.lin.events).length := by omega
    rw [hlap i hi h2, getD_elem _ _ h2]

theorem fix_inst {net : Net K} (h : net.inst = true) : net.fixTau none = some true := by
  unfold Net.fixTau
  rw [h]
  simp

/-- **C83** (linear).  Instantaneous contacts, repeated or not.  After any session in which the
options stay the same, the linear inter-event matrices and their products are computed: there is
one matrix per time of the window, the linear approximation, at the time given by the rate, of
the contacts starting at that time; the products are in the order asked for.  The lengths of the
intervals play no role. -/
theorem C83_linear_partial {net : Net K} (hi : net.inst = true) (hr : InRange net.lin.n net.lin.events)
    (hnl : NoSelfLoops net.lin.events) (hne : net.lin.events ≠ []) (hc : LabelSpec net.lin.n net.lin.comps)
    (hst : ∀ L : Mat K, ∀ i < net.lin.n, ∀ j < net.lin.n, L i j ≠ 0 → net.lin.stored L i j = true)
    (o : Opts K) (hfix : o.fix = none) :
    ∃ L, net.laplacians o.tStart o.tStop = .ok L ∧
      Resolves (timesOf net.lin.events) L.kStart 0 o.tStart ∧
      Resolves (timesOf net.lin.events) L.kStop ((timesOf net.lin.events).length - 1) o.tStop ∧
      ∀ (dense : Bool), (L.kStop ≤ L.kStart → dense = true) →
      ∀ calls : List (Call K), (∀ c ∈ calls, Uses o dense c) →
      ∀ (l tS : K) (sparse : Bool), 0 ≤ l → 1 < tS → (dense = true → sparse = false) →
      ∃ s1 s2 ms v, (after net calls).linInter net (some l) tS none sparse o.tStart o.tStop = (s1, none) ∧
        s1.linTrans net (some l) tS (o.reverseLin l tS) (o.saveLin l tS) = (s2, none) ∧
        s2.interLin.lookup (l, tS) = some ms ∧ s2.TLin.lookup (l, tS) = some v ∧
        (L.kStop ≤ L.kStart → ms = [eye]) ∧
        (L.kStart < L.kStop → ms.length = L.kStop - L.kStart ∧
          ∀ (i : Nat) (hi : i < ms.length) (hk : L.kStart + i < (timesOf net.lin.events).length),
            Stoch net.lin.n ms[i] ∧
            LinearApprox net.lin.n (Starts net.lin.events (timesOf net.lin.events)[L.kStart + i]) l tS ms[i]) ∧
        Products net.lin.n (o.reverseLin l tS) (o.saveLin l tS) ms v := by
  obtain ⟨L, hL, hstart, hstop, hD⟩ := inst_describes hi hr hnl hne o.tStart o.tStop
  refine ⟨L, hL, hstart, hstop, fun dense hd calls hu l tS sparse h0 hS hsp => ?_⟩
  have hf : net.fixTau o.fix = some true := by rw [hfix]; exact fix_inst hi
  have hI := Inv.after hL hf hD hc hst hd hu
  have h1 := hI.linInter hL hf hD hc hst (l := some l) (by rintro x ⟨⟩; exact h0) hS (sparse := sparse)
    fun hh => hsp (hd hh)
  rw [hfix] at h1
  obtain ⟨e1, ms, e2⟩ := h1.2 l rfl
  have h2 := h1.1.linTrans (l := some l) (tS := tS) (r := o.reverseLin l tS) (v := o.saveLin l tS)
    (by rintro x ⟨⟩; exact ⟨rfl, rfl⟩)
  obtain ⟨e3, e4, e5⟩ := h2.2 l ms rfl e2
  have hR := h1.1.interLin _ _ _ e2
  refine ⟨_, _, ms, _, Prod.ext rfl e1, Prod.ext rfl e3, by rw [e5]; exact e2, e4, hR.1.2, ?_,
    product_right hR.2 (rightLin_stoch hR.1) _ _⟩
  intro hlt
  refine ⟨(hR.1.1 hlt).1, ?_⟩
  intro i hi' hk
  have h3 := (hR.1.1 hlt).2 i hi'
  refine ⟨h3.1, ?_⟩
  have := h3.2
  beta_reduce at this
  rw [getD_elem _ _ hk] at this
  simpa [tauOf] using this

/-- Instantaneous contacts with a repeated one. -/
example : let net : Net ℚ := ⟨⟨3, instEvents exInst, fun _ => true, exComps 3, fun L i j => decide (L i j ≠ 0)⟩, true, id⟩
    net.inst = true ∧ InRange net.lin.n net.lin.events ∧ NoSelfLoops net.lin.events ∧ net.lin.events ≠ [] ∧
    LabelSpec net.lin.n net.lin.comps ∧
    (∀ L : Mat ℚ, ∀ i < net.lin.n, ∀ j < net.lin.n, L i j ≠ 0 → net.lin.stored L i j = true) ∧
    timesOf net.lin.events = [5, 7, 8] := by
  have h1 : InRange 3 (instEvents exInst) := by unfold InRange; decide +kernel
  have h2 : NoSelfLoops (instEvents exInst) := by unfold NoSelfLoops; decide +kernel
  have h3 : instEvents exInst ≠ [] := by decide +kernel
  have h4 : timesOf (instEvents exInst) = [5, 7, 8] := by decide +kernel
  intro net
  refine ⟨rfl, h1, h2, h3, exComps_spec 3, ?_, h4⟩
  intro L i _ j _ hij
  simp [net, hij]

/-- **C83**: the keyword `fix_tau_k` is refused by the methods of networks of instantaneous
contacts, and nothing is computed, for every session and value. -/
theorem C83_keyword_refused {net : Net K} (hi : net.inst = true) (calls : List (Call K)) (b : Bool) (l : Option K)
    (tS : K) (sparse : Bool) (tStart tStop : Option K) :
    (after net calls).inter net l (some b) tStart tStop = (after net calls, some .typeError) ∧
    (after net calls).linInter net l tS (some b) sparse tStart tStop = (after net calls, some .typeError) := by
  have : net.fixTau (some b) = none := by unfold Net.fixTau; rw [hi]; rfl
  constructor
  · unfold NState.inter; rw [this]
  · unfold NState.linInter; rw [this]

end

/-- **C83** (exact).  Instantaneous contacts, repeated or not, over the reals.  After any session
in which the options stay the same, the inter-event matrices and their products are computed:
there is one matrix per time of the window, the exponential of minus the rate times the
random-walk Laplacian of the contacts starting at that time; it is stochastic, and the products
are in the order asked for.  The lengths of the intervals play no role. -/
theorem C83_exact_partial {net : Net ℝ} (hi : net.inst = true) (hE : net.E = expm net.lin.n)
    (hr : InRange net.lin.n net.lin.events)
    (hnl : NoSelfLoops net.lin.events) (hne : net.lin.events ≠ []) (hc : LabelSpec net.lin.n net.lin.comps)
    (hst : ∀ L : Mat ℝ, ∀ i < net.lin.n, ∀ j < net.lin.n, L i j ≠ 0 → net.lin.stored L i j = true)
    (o : Opts ℝ) (hfix : o.fix = none) :
    ∃ L, net.laplacians o.tStart o.tStop = .ok L ∧
      Resolves (timesOf net.lin.events) L.kStart 0 o.tStart ∧
      Resolves (timesOf net.lin.events) L.kStop ((timesOf net.lin.events).length - 1) o.tStop ∧
      ∀ (dense : Bool), (L.kStop ≤ L.kStart → dense = true) →
      ∀ calls : List (Call ℝ), (∀ c ∈ calls, Uses o dense c) → ∀ l : ℝ, 0 ≤ l →
      ∃ s1 s2 ms v, (after net calls).inter net (some l) none o.tStart o.tStop = (s1, none) ∧
        s1.trans net (some l) (o.reverse l) (o.save l) = (s2, none) ∧
        s2.interT.lookup l = some ms ∧ s2.T.lookup l = some v ∧
        (L.kStop ≤ L.kStart → ms = [eye]) ∧
        (L.kStart < L.kStop → ms.length = L.kStop - L.kStart ∧
          ∀ (i : Nat) (hi : i < ms.length) (hk : L.kStart + i < (timesOf net.lin.events).length),
            Stoch net.lin.n ms[i] ∧
            EqOn net.lin.n ms[i] (expm net.lin.n fun a b =>
              -l * walkLaplacian net.lin.n (Starts net.lin.events (timesOf net.lin.events)[L.kStart + i]) a b)) ∧
        Products net.lin.n (o.reverse l) (o.save l) ms v := by
  obtain ⟨L, hL, hstart, hstop, hD⟩ := inst_describes hi hr hnl hne o.tStart o.tStop
  have hrows : ∀ M ∈ L.laplacians, (∀ i < net.lin.n, ∑ j ∈ Finset.range net.lin.n, M i j = 0) ∧
        (∀ i j, i ≠ j → M i j ≤ 0) ∧ ∀ i, 0 ≤ M i i ∧ M i i ≤ 1 := by
    apply C57_row_sums hr hnl net.lin.startFirst o.tStart o.tStop L
    unfold Net.laplacians at hL
    rw [hi] at hL
    simpa using hL
  refine ⟨L, hL, hstart, hstop, fun dense hd calls hu l h0 => ?_⟩
  have hf : net.fixTau o.fix = some true := by rw [hfix]; exact fix_inst hi
  have hI := Inv.after hL hf hD hc hst hd hu
  have h1 := hI.inter hL hf (l := some l) (by rintro x ⟨⟩; exact h0)
  rw [hfix] at h1
  obtain ⟨e1, ms, e2⟩ := h1.2 l rfl
  obtain ⟨-, hms⟩ := h1.1.interT _ _ e2
  have hl2 : (((timesOf net.lin.events).take L.kStop).drop L.kStart).length = L.kStop - L.kStart := by
    have := hD.stop
    simp only [List.length_drop, List.length_take]; omega
  have hlen : ms.length = if L.kStop - L.kStart = 0 then 1 else L.kStop - L.kStart := by
    rw [hms, interMats_length, hl2]
  have hne' : ms ≠ [] := by
    intro hn
    rw [hn] at hlen
    split at hlen <;> simp at hlen
    omega
  have h2 := h1.1.trans (l := some l) (r := o.reverse l) (v := o.save l) (by rintro x ⟨⟩; exact ⟨rfl, rfl⟩)
  obtain ⟨e3, e4, e5⟩ := h2.2 l ms rfl e2 hne'
  have hempty : L.kStop ≤ L.kStart → ms = [eye] := by
    intro hle
    have hemp : ((timesOf net.lin.events).take L.kStop).drop L.kStart = [] := by
      rw [List.drop_eq_nil_iff, List.length_take]; omega
    rw [hms]
    unfold interMats
    simp [hemp]
  have hmat : L.kStart < L.kStop → ms.length = L.kStop - L.kStart ∧
      ∀ (i : Nat) (hi : i < ms.length) (hk : L.kStart + i < (timesOf net.lin.events).length),
        Stoch net.lin.n ms[i] ∧
        EqOn net.lin.n ms[i] (expm net.lin.n fun a b =>
          -l * walkLaplacian net.lin.n (Starts net.lin.events (timesOf net.lin.events)[L.kStart + i]) a b) := by
    intro hlt
    have hlen' : ms.length = L.kStop - L.kStart := by rw [hlen, if_neg (by omega)]
    refine ⟨hlen', ?_⟩
    intro i hi' hk
    have hi2 : i < L.laplacians.length := by rw [hD.len]; omega
    have hEq : EqOn net.lin.n ms[i] (expm net.lin.n fun a b => -l * L.laplacians[i] a b) := by
      have hget : ms[i] = interMat net.lin.n (expm net.lin.n) l true L.laplacians[i]
          (timesOf net.lin.events)[L.kStart + i] ((timesOf net.lin.events).getD (L.kStart + i + 1) 0) := by
        subst hms
        unfold interMats
        dsimp only
        have hl3 : ((((timesOf net.lin.events).take L.kStop).drop L.kStart).zipIdx.map fun (p : ℝ × Nat) =>
            interMat net.lin.n net.E l true (L.laplacians.getD p.2 eye) p.1
              ((timesOf net.lin.events).getD (L.kStart + p.2 + 1) 0)).length = L.kStop - L.kStart := by
          rw [List.length_map, List.length_zipIdx, hl2]
        simp only [if_neg (by rw [hl3]; omega : ¬ ((((timesOf net.lin.events).take L.kStop).drop L.kStart).zipIdx.map
            fun (p : ℝ × Nat) => interMat net.lin.n net.E l true (L.laplacians.getD p.2 eye) p.1
              ((timesOf net.lin.events).getD (L.kStart + p.2 + 1) 0)).length = 0)]
        simp only [List.getElem_map, List.getElem_zipIdx, List.getElem_drop, List.getElem_take, Nat.zero_add,
          getD_elem _ _ hi2, hE]
      rw [hget]
      refine (interMat_eq _ _ _ _ _ _).trans ?_
      intro a _ b _
      simp
    constructor
    · refine stoch_congr hEq ?_
      obtain ⟨r1, r2, _⟩ := hrows _ (List.getElem_mem hi2)
      exact expm_stoch r1 (fun i _ j _ h => r2 i j h) h0
    · refine hEq.trans ?_
      rw [expm_congr (B := fun a b => -l * walkLaplacian net.lin.n
        (Starts net.lin.events (timesOf net.lin.events)[L.kStart + i]) a b)]
      · exact EqOn.refl _ _
      · intro a _ b _
        show _ * _ = _ * _
        rw [hD.lap i hi2, getD_elem _ _ hk]
  refine ⟨_, _, ms, _, Prod.ext rfl e1, Prod.ext rfl e3, by rw [e5]; exact e2, e4, hempty, hmat,
    product_right hne' ?_ _ _⟩
  intro A hA
  obtain ⟨i, hi', rfl⟩ := List.getElem_of_mem hA
  by_cases hlt : L.kStart < L.kStop
  · have := (hmat hlt).1
    have := hD.stop
    exact ((hmat hlt).2 i hi' (by omega)).1
  · have := hempty (by omega)
    subst this
    have : i = 0 := by simpa using hi'
    subst this
    exact stoch_eye _

end Verif.LinTrans
