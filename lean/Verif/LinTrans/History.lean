import Verif.LinTrans.Lemmas

/-!
# Invariant of a session that keeps its options
-/

set_option linter.dupNamespace false
set_option linter.unusedSectionVars false
set_option linter.unusedSimpArgs false

namespace Verif.LinTrans

open Verif.TempNet Verif.Trans Finset

variable {K : Type} [Field K] [LinearOrder K] [IsStrictOrderedRing K]

/-- What holds after every call of a session with the options `o` on a network with the
Laplacians `L` of the graphs `G`. -/
structure Inv (net : Net K) (o : Opts K) (fix : Bool) (L : Laps K) (G : Nat → Nat → Nat → Prop) (s : NState K) :
    Prop where
  laps : s.laps = none ∨ s.laps = some L
  pis : s.pis = none ∨ (s.pis = some (stationaries net.lin.n net.lin.comps L) ∧ s.laps = some L)
  interT : ∀ l ms, s.interT.lookup l = some ms → 0 ≤ l ∧
    ms = interMats net.lin.n net.E (timesOf net.lin.events) L l fix
  interLin : ∀ l tS ms, s.interLin.lookup (l, tS) = some ms → RightLin net L G fix l tS ms ∧ ms ≠ []
  T : ∀ l v, s.T.lookup l = some v → ∃ ms, s.interT.lookup l = some ms ∧
    v = product net.lin.n (o.reverse l) (o.save l) ms
  TLin : ∀ l tS v, s.TLin.lookup (l, tS) = some v → ∃ ms, s.interLin.lookup (l, tS) = some ms ∧
    v = product net.lin.n (o.reverseLin l tS) (o.saveLin l tS) ms

theorem lookup_cons_some {κ ν : Type} [BEq κ] [LawfulBEq κ] {k k' : κ} {v v' : ν} {d : List (κ × ν)}
    (h : ((k, v) :: d).lookup k' = some v') : (k' = k ∧ v' = v) ∨ d.lookup k' = some v' := by
  rw [List.lookup_cons] at h
  cases hk : k' == k with
  | true => rw [hk] at h; simp at h; exact .inl ⟨eq_of_beq hk, h.symm⟩
  | false => rw [hk] at h; exact .inr h

theorem lookup_cons_keep {κ ν : Type} [BEq κ] [LawfulBEq κ] {k k' : κ} {v v' : ν} {d : List (κ × ν)}
    (hn : d.lookup k = none) (h : d.lookup k' = some v') : ((k, v) :: d).lookup k' = some v' := by
  rw [List.lookup_cons]
  have : (k' == k) = false := by
    rw [beq_eq_false_iff_ne]
    rintro rfl
    rw [hn] at h; cases h
  rw [this]
  exact h

theorem Inv.fresh (net : Net K) (o : Opts K) (fix : Bool) (L : Laps K) (G : Nat → Nat → Nat → Prop) :
    Inv net o fix L G NState.fresh :=
  ⟨.inl rfl, .inl rfl, by simp [NState.fresh], by simp [NState.fresh], by simp [NState.fresh], by simp [NState.fresh]⟩

section
variable {net : Net K} {o : Opts K} {fix : Bool} {L : Laps K} {G : Nat → Nat → Nat → Prop} {s : NState K}

theorem Inv.withLaps (h : Inv net o fix L G s) : Inv net o fix L G { s with laps := some L } :=
  ⟨.inr rfl, h.pis.imp id fun ⟨a, _⟩ => ⟨a, rfl⟩, h.interT, h.interLin, h.T, h.TLin⟩

theorem Inv.withPis (h : Inv net o fix L G s) :
    Inv net o fix L G { s with laps := some L, pis := some (stationaries net.lin.n net.lin.comps L) } :=
  ⟨.inr rfl, .inr ⟨rfl, rfl⟩, h.interT, h.interLin, h.T, h.TLin⟩

theorem Inv.interCore (h : Inv net o fix L G s) {l : Option K} (hl : ∀ x, l = some x → 0 ≤ x) :
    Inv net o fix L G (s.interCore net L l fix).1 := by
  unfold NState.interCore
  split
  · exact h
  · rename_i r hr
    split
    · exact h
    · rename_i hn
      refine ⟨h.laps, h.pis, ?_, h.interLin, ?_, h.TLin⟩
      · intro l' ms hm
        rcases lookup_cons_some hm with ⟨rfl, rfl⟩ | hm
        · exact ⟨rate_nonneg net hl hr, rfl⟩
        · exact h.interT _ _ hm
      · intro l' v hv
        obtain ⟨ms, h1, h2⟩ := h.T _ _ hv
        exact ⟨ms, lookup_cons_keep hn h1, h2⟩

theorem Inv.linCore (hD : Describes net L G) (hc : LabelSpec net.lin.n net.lin.comps)
    (hst : ∀ L : Mat K, ∀ i < net.lin.n, ∀ j < net.lin.n, L i j ≠ 0 → net.lin.stored L i j = true)
    (h : Inv net o fix L G s) {l : Option K} (hl : ∀ x, l = some x → 0 ≤ x) {tS : K} (hS : 1 < tS) {sparse : Bool}
    (hsp : L.kStop ≤ L.kStart → sparse = false) :
    Inv net o fix L G (s.linCore net L (stationaries net.lin.n net.lin.comps L) l tS fix sparse).1 ∧
    ∀ r, net.rate l = some r →
      (s.linCore net L (stationaries net.lin.n net.lin.comps L) l tS fix sparse).2 = none ∧
      ∃ ms, (s.linCore net L (stationaries net.lin.n net.lin.comps L) l tS fix sparse).1.interLin.lookup (r, tS) =
        some ms := by
  unfold NState.linCore
  cases hr : net.rate l with
  | none => exact ⟨h, by simp⟩
  | some r =>
    dsimp only
    cases hk : s.interLin.lookup (r, tS) with
    | some ms =>
      refine ⟨h, ?_⟩
      rintro r' h'
      cases h'
      exact ⟨rfl, ms, hk⟩
    | none =>
      obtain ⟨ms, e1, e2, e3⟩ := linList_right hD hc hst (rate_nonneg net hl hr) hS fix sparse hsp
      simp only [e1]
      refine ⟨⟨h.laps, h.pis, h.interT, ?_, h.T, ?_⟩, ?_⟩
      · intro l' tS' ms' hm
        rcases lookup_cons_some hm with ⟨heq, rfl⟩ | hm
        · cases heq
          exact ⟨e2, e3⟩
        · exact h.interLin _ _ _ hm
      · intro l' tS' v hv
        obtain ⟨ms, h1, h2⟩ := h.TLin _ _ _ hv
        exact ⟨ms, lookup_cons_keep hk h1, h2⟩
      · rintro r' h'
        cases h'
        exact ⟨rfl, ms, by simp⟩

theorem Inv.linInter (hL : net.laplacians o.tStart o.tStop = .ok L) (hf : net.fixTau o.fix = some fix)
    (hD : Describes net L G) (hc : LabelSpec net.lin.n net.lin.comps)
    (hst : ∀ L : Mat K, ∀ i < net.lin.n, ∀ j < net.lin.n, L i j ≠ 0 → net.lin.stored L i j = true)
    (h : Inv net o fix L G s) {l : Option K} (hl : ∀ x, l = some x → 0 ≤ x) {tS : K} (hS : 1 < tS) {sparse : Bool}
    (hsp : L.kStop ≤ L.kStart → sparse = false) :
    Inv net o fix L G (s.linInter net l tS o.fix sparse o.tStart o.tStop).1 ∧
    ∀ r, net.rate l = some r → (s.linInter net l tS o.fix sparse o.tStart o.tStop).2 = none ∧
      ∃ ms, (s.linInter net l tS o.fix sparse o.tStart o.tStop).1.interLin.lookup (r, tS) = some ms := by
  unfold NState.linInter
  simp only [hf]
  rcases h.laps with hl0 | hl0
  · simp only [hl0, hL]
    exact h.withPis.linCore hD hc hst hl hS hsp
  · simp only [hl0]
    rcases h.pis with hp | ⟨hp, -⟩
    · simp only [hp]
      have := h.withPis
      rw [← hl0] at this
      have := Inv.linCore hD hc hst this hl hS hsp
      simp only [hl0] at this
      exact this
    · simp only [hp]
      exact h.linCore hD hc hst hl hS hsp

theorem Inv.inter (hL : net.laplacians o.tStart o.tStop = .ok L) (hf : net.fixTau o.fix = some fix)
    (h : Inv net o fix L G s) {l : Option K} (hl : ∀ x, l = some x → 0 ≤ x) :
    Inv net o fix L G (s.inter net l o.fix o.tStart o.tStop).1 ∧
    ∀ r, net.rate l = some r → (s.inter net l o.fix o.tStart o.tStop).2 = none ∧
      ∃ ms, (s.inter net l o.fix o.tStart o.tStop).1.interT.lookup r = some ms := by
  have key : ∀ s : NState K, ∀ r, net.rate l = some r → (s.interCore net L l fix).2 = none ∧
      ∃ ms, (s.interCore net L l fix).1.interT.lookup r = some ms := by
    intro s r hr
    unfold NState.interCore
    rw [hr]
    dsimp only
    cases hk : s.interT.lookup r with
    | some ms => exact ⟨rfl, ms, hk⟩
    | none => exact ⟨rfl, _, List.lookup_cons_self⟩
  unfold NState.inter
  simp only [hf]
  rcases h.laps with hl0 | hl0
  · simp only [hl0, hL]
    exact ⟨h.withLaps.interCore hl, key _⟩
  · simp only [hl0]
    exact ⟨h.interCore hl, key _⟩

theorem Inv.trans (h : Inv net o fix L G s) {l : Option K} {r v : Bool}
    (ho : ∀ x, l = some x → r = o.reverse x ∧ v = o.save x) :
    Inv net o fix L G (s.trans net l r v).1 ∧
    ∀ x ms, l = some x → s.interT.lookup x = some ms → ms ≠ [] → (s.trans net l r v).2 = none ∧
      (s.trans net l r v).1.T.lookup x = some (product net.lin.n r v ms) ∧
      (s.trans net l r v).1.interT = s.interT := by
  unfold NState.trans
  cases l with
  | none => exact ⟨h, by simp⟩
  | some x =>
    obtain ⟨rfl, rfl⟩ := ho x rfl
    dsimp only
    cases hk : s.interT.lookup x with
    | none => exact ⟨h, fun x' ms hx => by cases hx; rw [hk]; intro h; cases h⟩
    | some ms =>
      dsimp only
      cases hT : s.T.lookup x with
      | some w =>
        refine ⟨h, ?_⟩
        intro x' ms' hx hms _
        cases hx
        rw [hk] at hms; cases hms
        obtain ⟨ms', h1, h2⟩ := h.T _ _ hT
        rw [hk] at h1; cases h1
        exact ⟨rfl, by rw [hT, h2], rfl⟩
      | none =>
        cases ms with
        | nil => exact ⟨h, fun x' ms hx => by cases hx; rw [hk]; rintro ⟨⟩ h; exact absurd rfl h⟩
        | cons M ms =>
          dsimp only
          refine ⟨⟨h.laps, h.pis, h.interT, h.interLin, ?_, h.TLin⟩, ?_⟩
          · intro l' w hw
            rcases lookup_cons_some hw with ⟨rfl, rfl⟩ | hw
            · exact ⟨_, hk, rfl⟩
            · exact h.T _ _ hw
          · intro x' ms' hx hms _
            cases hx
            rw [hk] at hms; cases hms
            exact ⟨rfl, by simp, rfl⟩

theorem Inv.linTrans (h : Inv net o fix L G s) {l : Option K} {tS : K} {r v : Bool}
    (ho : ∀ x, l = some x → r = o.reverseLin x tS ∧ v = o.saveLin x tS) :
    Inv net o fix L G (s.linTrans net l tS r v).1 ∧
    ∀ x ms, l = some x → s.interLin.lookup (x, tS) = some ms → (s.linTrans net l tS r v).2 = none ∧
      (s.linTrans net l tS r v).1.TLin.lookup (x, tS) = some (product net.lin.n r v ms) ∧
      (s.linTrans net l tS r v).1.interLin = s.interLin := by
  unfold NState.linTrans
  cases l with
  | none => exact ⟨h, by simp⟩
  | some x =>
    obtain ⟨rfl, rfl⟩ := ho x rfl
    dsimp only
    cases hk : s.interLin.lookup (x, tS) with
    | none => exact ⟨h, fun x' ms hx => by cases hx; rw [hk]; intro h; cases h⟩
    | some ms =>
      dsimp only
      cases hT : s.TLin.lookup (x, tS) with
      | some w =>
        refine ⟨h, ?_⟩
        intro x' ms' hx hms
        cases hx
        rw [hk] at hms; cases hms
        obtain ⟨ms', h1, h2⟩ := h.TLin _ _ _ hT
        rw [hk] at h1; cases h1
        exact ⟨rfl, by rw [hT, h2], rfl⟩
      | none =>
        cases ms with
        | nil => exact absurd rfl (h.interLin _ _ _ hk).2
        | cons M ms =>
          dsimp only
          refine ⟨⟨h.laps, h.pis, h.interT, h.interLin, h.T, ?_⟩, ?_⟩
          · intro l' tS' w hw
            rcases lookup_cons_some hw with ⟨heq, rfl⟩ | hw
            · cases heq
              exact ⟨_, hk, rfl⟩
            · exact h.TLin _ _ _ hw
          · intro x' ms' hx hms
            cases hx
            rw [hk] at hms; cases hms
            exact ⟨rfl, by simp, rfl⟩

theorem Inv.call (hL : net.laplacians o.tStart o.tStop = .ok L) (hf : net.fixTau o.fix = some fix)
    (hD : Describes net L G) (hc : LabelSpec net.lin.n net.lin.comps)
    (hst : ∀ L : Mat K, ∀ i < net.lin.n, ∀ j < net.lin.n, L i j ≠ 0 → net.lin.stored L i j = true)
    {dense : Bool} (hd : L.kStop ≤ L.kStart → dense = true)
    (h : Inv net o fix L G s) {c : Call K} (hu : Uses o dense c) : Inv net o fix L G (s.call net c).1 := by
  cases c with
  | laplacians a b =>
    obtain ⟨rfl, rfl⟩ := hu
    unfold NState.call NState.setLaps
    simp only [hL]
    exact h.withLaps
  | inter l f a b =>
    obtain ⟨h1, rfl, rfl, rfl⟩ := hu
    exact (h.inter hL hf h1).1
  | linInter l tS f sp a b =>
    obtain ⟨h1, h2, rfl, h3, rfl, rfl⟩ := hu
    exact (h.linInter hL hf hD hc hst h1 h2 fun hh => h3 (hd hh)).1
  | trans l r v => exact (h.trans hu).1
  | linTrans l tS r v => exact (h.linTrans hu).1

theorem Inv.after (hL : net.laplacians o.tStart o.tStop = .ok L) (hf : net.fixTau o.fix = some fix)
    (hD : Describes net L G) (hc : LabelSpec net.lin.n net.lin.comps)
    (hst : ∀ L : Mat K, ∀ i < net.lin.n, ∀ j < net.lin.n, L i j ≠ 0 → net.lin.stored L i j = true)
    {dense : Bool} (hd : L.kStop ≤ L.kStart → dense = true) {calls : List (Call K)}
    (hu : ∀ c ∈ calls, Uses o dense c) : Inv net o fix L G (after net calls) := by
  have : ∀ (calls : List (Call K)) (s : NState K), (∀ c ∈ calls, Uses o dense c) → Inv net o fix L G s →
      Inv net o fix L G (calls.foldl (fun s c => (s.call net c).1) s) := by
    intro calls
    induction calls with
    | nil => intro s _ h; exact h
    | cons c calls ih =>
      intro s hu h
      exact ih _ (fun c hc => hu c (by simp [hc])) (h.call hL hf hD hc hst hd (hu c (by simp)))
  exact this calls _ hu (Inv.fresh ..)

end

end Verif.LinTrans
