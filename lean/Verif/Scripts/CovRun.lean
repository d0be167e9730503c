import Verif.Scripts.CovLemmas

/-!
# Covariance integrals: what a run of the worker does to the disk
-/

set_option linter.dupNamespace false
set_option linter.unusedSectionVars false
set_option linter.unusedSimpArgs false

namespace Verif.Scripts

open Verif.Trans Verif.Flow Verif.Autocov

variable {K : Type} [Field K] [LinearOrder K] [IsStrictOrderedRing K]

/-- Every file that is there is what it should be. -/
structure Good (cfg : Cfg K) (start : Nat) (d : Disk K) : Prop where
  integral : ∀ reverse kind stop f, cfg.use kind = true → After reverse start stop → d.integral kind stop = some f →
    Complete cfg reverse kind start stop (some f)
  temp : ∀ reverse k f, Passed reverse start k → d.temp (k + 1) = some f →
    ∃ v : Temp K, f = .whole v ∧ v.last = k ∧
      Agree cfg.n ⟨v.itpt, v.T, v.time⟩ (stepsOf (cfg.slices .expm) reverse start (next reverse k))
        (spanOf (cfg.slices .expm) reverse start (next reverse k))

theorem good_empty (cfg : Cfg K) (start : Nat) : Good cfg start .empty :=
  ⟨fun _ _ _ _ _ _ h => (nomatch h), fun _ _ _ _ h => (nomatch h)⟩

theorem after_unique {reverse reverse' : Bool} {a b : Nat} (h : After reverse a b) (h' : After reverse' a b) :
    reverse = reverse' := by
  cases reverse <;> cases reverse' <;> simp only [After, Bool.false_eq_true, if_false, if_true] at * <;> omega

theorem passed_unique {reverse reverse' : Bool} {a b : Nat} (h : Passed reverse a b) (h' : Passed reverse' a b) :
    reverse = reverse' := by
  cases reverse <;> cases reverse' <;> simp only [Passed, Bool.false_eq_true, if_false, if_true] at * <;> omega

theorem after_next {reverse : Bool} {start k : Nat} (h : Passed reverse start k) : After reverse start (next reverse k) := by
  cases reverse <;> simp only [Passed, After, next, Bool.false_eq_true, if_false, if_true] at * <;> omega

/-- A running worker without an exception: the disk is that of its writes, and it was good all the
time. -/
structure Live (cfg : Cfg K) (start : Nat) (d0 : Disk K) (r : Run K) : Prop where
  failed : r.failed = none
  disk : r.disk = r.log.foldl Disk.write d0
  good : ∀ ws, ws <+: r.log → Good cfg start (ws.foldl Disk.write d0)

theorem Live.now {cfg : Cfg K} {start : Nat} {d0 : Disk K} {r : Run K} (h : Live cfg start d0 r) :
    Good cfg start r.disk := h.disk ▸ h.good r.log (List.prefix_refl _)

theorem Live.emit {cfg : Cfg K} {start : Nat} {d0 : Disk K} {r : Run K} (h : Live cfg start d0 r) {w : Write K}
    (hw : Good cfg start (r.disk.write w)) : Live cfg start d0 (r.emit w) := by
  refine ⟨h.failed, ?_, ?_⟩
  · show r.disk.write w = (r.log ++ [w]).foldl Disk.write d0
    rw [List.foldl_append, ← h.disk]; rfl
  · intro ws hws
    rcases List.prefix_concat_iff.1 hws with h1 | h1
    · rw [h1, List.foldl_append, ← h.disk]; exact hw
    · exact h.good ws h1

theorem Live.setSt {cfg : Cfg K} {start : Nat} {d0 : Disk K} {r : Run K} (h : Live cfg start d0 r) (st : Kind → Integ K) :
    Live cfg start d0 { r with st := st } := ⟨h.failed, h.disk, h.good⟩

/-- The integral of a kind has arrived at `a`. -/
def At (cfg : Cfg K) (reverse : Bool) (start : Nat) (kind : Kind) (a : Nat) (s : Integ K) : Prop :=
  Agree cfg.n s (stepsOf (cfg.slices kind) reverse start a) (spanOf (cfg.slices kind) reverse start a)

theorem compute_spec {cfg : Cfg K} (hsq : ∀ x : K, 0 ≤ x → cfg.sqrt x * cfg.sqrt x = x) {start : Nat} {d0 : Disk K}
    {r : Run K} (h : Live cfg start d0 r) {reverse : Bool} {kind : Kind} {k : Nat} (hp : Passed reverse start k)
    (hf : ∀ m, m < max start (k + 1) → ∃ s, cfg.slices kind m = some s ∧ s.Sound cfg.n)
    (ha : At cfg reverse start kind (here reverse k) (r.st kind)) :
    Live cfg start d0 (r.compute cfg reverse kind k) ∧
      At cfg reverse start kind (next reverse k) ((r.compute cfg reverse kind k).st kind) ∧
      (∀ kind', kind' ≠ kind → (r.compute cfg reverse kind k).st kind' = r.st kind') ∧
      (r.compute cfg reverse kind k).disk.integral = r.disk.integral := by
  obtain ⟨sl, hsl, hs⟩ := hf k (by omega)
  obtain ⟨e1, e2⟩ := steps_next hp hsl
  have hst : ∀ e ∈ stepsOf (cfg.slices kind) reverse start (here reverse k), Stoch cfg.n e.1 := by
    refine steps_stoch fun m hm => hf m ?_
    cases reverse <;> simp only [here, Bool.false_eq_true, if_false, if_true] at hm <;> omega
  have hag : At cfg reverse start kind (next reverse k) (addSlice cfg reverse (r.st kind) sl) := by
    unfold At
    rw [e1, e2]
    exact agree_slice hsq reverse ha hst hs
  unfold Run.compute
  rw [hsl]
  dsimp only
  have hself : setKind r.st kind (addSlice cfg reverse (r.st kind) sl) kind = addSlice cfg reverse (r.st kind) sl := by
    simp [setKind]
  have hother : ∀ kind', kind' ≠ kind → setKind r.st kind (addSlice cfg reverse (r.st kind) sl) kind' = r.st kind' := by
    intro kind' hk
    simp [setKind, hk]
  split
  · next hc =>
    refine ⟨Live.emit (h.setSt _) ?_, by simpa [Run.emit, hself] using hag, hother, rfl⟩
    obtain ⟨rfl, -, -⟩ := hc
    refine ⟨?_, ?_⟩
    · exact h.now.integral
    · intro rev' k' f hp' hf'
      simp only [Disk.write] at hf'
      split at hf'
      · next heq =>
        have hkk : k' = k := by omega
        subst hkk
        obtain rfl := passed_unique hp' hp
        injection hf' with hf'
        exact ⟨_, hf'.symm, rfl, hag⟩
      · exact h.now.temp rev' k' f hp' hf'
  · exact ⟨h.setSt _, by simpa [hself] using hag, hother, rfl⟩

theorem interval_spec {cfg : Cfg K} (hsq : ∀ x : K, 0 ≤ x → cfg.sqrt x * cfg.sqrt x = x) {start : Nat} {d0 : Disk K}
    {r : Run K} (h : Live cfg start d0 r) {reverse : Bool} {kind : Kind} {k : Nat} (hp : Passed reverse start k)
    (hf : ∀ m, m < max start (k + 1) → ∃ s, cfg.slices kind m = some s ∧ s.Sound cfg.n)
    (ha : At cfg reverse start kind (here reverse k) (r.st kind)) :
    Live cfg start d0 (r.interval cfg reverse kind k) ∧
      At cfg reverse start kind (next reverse k) ((r.interval cfg reverse kind k).st kind) ∧
      (∀ kind', kind' ≠ kind → (r.interval cfg reverse kind k).st kind' = r.st kind') ∧
      (r.interval cfg reverse kind k).disk.integral = r.disk.integral := by
  have hc := compute_spec hsq h hp hf ha
  unfold Run.interval
  rw [if_neg (by rw [h.failed]; simp)]
  split
  · next hk =>
    obtain ⟨rfl, -⟩ := hk
    cases ht : r.disk.temp (k + 1) with
    | none => exact hc
    | some f =>
      obtain ⟨v, rfl, hv, hag⟩ := h.now.temp reverse k f hp ht
      dsimp only
      rw [if_pos hv]
      refine ⟨h.setSt _, ?_, ?_, rfl⟩
      · simpa [setKind, At] using hag
      · intro kind' hk
        simp [setKind, hk]
  · exact hc

theorem kinds_spec {cfg : Cfg K} (hsq : ∀ x : K, 0 ≤ x → cfg.sqrt x * cfg.sqrt x = x) {start : Nat} {d0 : Disk K}
    {reverse : Bool} {k : Nat} (hp : Passed reverse start k) (kinds : List Kind) :
    kinds.Nodup → (∀ kind ∈ kinds, ∀ m, m < max start (k + 1) → ∃ s, cfg.slices kind m = some s ∧ s.Sound cfg.n) →
    ∀ r : Run K, Live cfg start d0 r → (∀ kind ∈ kinds, At cfg reverse start kind (here reverse k) (r.st kind)) →
      let r' := kinds.foldl (fun r kind => r.interval cfg reverse kind k) r
      Live cfg start d0 r' ∧ (∀ kind ∈ kinds, At cfg reverse start kind (next reverse k) (r'.st kind)) ∧
        (∀ kind, kind ∉ kinds → r'.st kind = r.st kind) ∧ r'.disk.integral = r.disk.integral := by
  induction kinds with
  | nil => intro _ _ r h _; exact ⟨h, by simp, by simp, rfl⟩
  | cons kd kinds ih =>
    intro hnd hf r h ha
    obtain ⟨h1, h2, h3, h4⟩ := interval_spec hsq h hp (hf kd (by simp)) (ha kd (by simp))
    obtain ⟨hn1, hn2⟩ := List.nodup_cons.1 hnd
    have hne : ∀ kind ∈ kinds, kind ≠ kd := fun kind hk hc => hn1 (hc ▸ hk)
    obtain ⟨g1, g2, g3, g4⟩ := ih hn2 (fun kind hk => hf kind (by simp [hk])) _ h1 (fun kind hk => by
      rw [h3 kind (hne kind hk)]; exact ha kind (by simp [hk]))
    rw [List.foldl_cons]
    refine ⟨g1, ?_, ?_, g4.trans h4⟩
    · intro kind hk
      rcases List.mem_cons.1 hk with rfl | hk
      · rw [g3 kind hn1]; exact h2
      · exact g2 kind hk
    · intro kind hk
      rw [g3 kind (fun hc => hk (by simp [hc])), h3 kind (fun hc => hk (by simp [hc]))]

theorem range_spec {cfg : Cfg K} (hsq : ∀ x : K, 0 ≤ x → cfg.sqrt x * cfg.sqrt x = x) {start : Nat} {d0 : Disk K}
    {reverse : Bool} {kinds : List Kind} (hnd : kinds.Nodup) {stop : Nat}
    (hf : ∀ kind ∈ kinds, ∀ m, m < max start stop → ∃ s, cfg.slices kind m = some s ∧ s.Sound cfg.n) :
    ∀ (d a : Nat), (a = stop ∨ After reverse a stop) → (a = start ∨ After reverse start a) →
      (if reverse then a - stop else stop - a) = d → ∀ r : Run K, Live cfg start d0 r →
      (∀ kind ∈ kinds, At cfg reverse start kind a (r.st kind)) →
      let r' := (kRange reverse a stop).foldl (fun r k => kinds.foldl (fun r kind => r.interval cfg reverse kind k) r) r
      Live cfg start d0 r' ∧ (∀ kind ∈ kinds, At cfg reverse start kind stop (r'.st kind)) ∧
        r'.disk.integral = r.disk.integral := by
  intro d
  induction d with
  | zero =>
    intro a h1 h2 hd r h ha
    have : a = stop := by
      rcases h1 with h1 | h1
      · exact h1
      · cases reverse <;> simp only [After, Bool.false_eq_true, if_false, if_true] at h1 hd <;> omega
    subst this
    rw [kRange_self]
    exact ⟨h, ha, rfl⟩
  | succ d ih =>
    intro a h1 h2 hd r h hat
    have ha : After reverse a stop := by
      rcases h1 with h1 | h1
      · subst h1; simp at hd
      · exact h1
    obtain ⟨k, hk1, hk2, hk3⟩ := kRange_cons ha
    have hkl : max start (k + 1) ≤ max start stop := by
      cases reverse <;> simp only [here, After, Bool.false_eq_true, if_false, if_true] at hk1 ha h2 <;> omega
    have hpass : Passed reverse start k := by
      cases reverse <;> simp only [here, After, Passed, Bool.false_eq_true, if_false, if_true] at hk1 ha h2 ⊢ <;> omega
    obtain ⟨g1, g2, -, g4⟩ := kinds_spec hsq hpass kinds hnd (fun kind hk m hm => hf kind hk m (by omega)) r h
      (fun kind hk => by rw [hk1]; exact hat kind hk)
    rw [hk3, List.foldl_cons]
    obtain ⟨i1, i2, i3⟩ := ih (next reverse k) hk2 (.inr (after_next hpass)) (by
      cases reverse <;> simp only [here, next, After, Bool.false_eq_true, if_false, if_true] at hk1 hd ha ⊢ <;> omega)
      _ g1 g2
    exact ⟨i1, i2, i3.trans g4⟩

theorem save_spec {cfg : Cfg K} {start : Nat} {d0 : Disk K} {r : Run K} (h : Live cfg start d0 r) {reverse : Bool}
    {kind : Kind} (hu : cfg.use kind = true) {stop : Nat} (hs : After reverse start stop)
    (ha : At cfg reverse start kind stop (r.st kind)) :
    Live cfg start d0 (r.save kind stop) ∧ (r.save kind stop).st = r.st ∧
      Complete cfg reverse kind start stop ((r.save kind stop).disk.integral kind stop) ∧
      ∀ kind' s', ¬ (kind' = kind ∧ s' = stop) → (r.save kind stop).disk.integral kind' s' = r.disk.integral kind' s' := by
  obtain ⟨a1, a2, a3⟩ := ha
  unfold Run.save
  rw [if_neg (by rw [h.failed]; simp)]
  split
  · next ht =>
    have hcomp : Complete cfg reverse kind start stop
        (some (.whole ⟨fun i j => if i ≤ j then (r.st kind).itpt i j else 0, (r.st kind).time⟩)) := by
      refine ⟨a3 ▸ ht, a3, ?_⟩
      intro i hi j hj
      dsimp only
      split
      · next hij => exact a2 i hi j hj hij
      · rfl
    refine ⟨h.emit ⟨?_, h.now.temp⟩, rfl, ?_, ?_⟩
    · intro rev' kind' stop' f hu' hs' hf
      simp only [Disk.write] at hf
      split at hf
      · next heq =>
        obtain ⟨rfl, rfl⟩ := heq
        obtain rfl := after_unique hs hs'
        injection hf with hf
        rw [← hf]
        exact hcomp
      · exact h.now.integral rev' kind' stop' f hu' hs' hf
    · simp only [Run.emit, Disk.write, and_self, if_true]
      exact hcomp
    · intro kind' s' hne
      simp only [Run.emit, Disk.write, if_neg hne]
  · next ht =>
    refine ⟨h, rfl, ?_, fun _ _ _ => rfl⟩
    cases hf : r.disk.integral kind stop with
    | none => rw [a3] at ht; exact not_lt.1 ht
    | some f => exact h.now.integral reverse kind stop f hu hs hf

theorem saves_spec {cfg : Cfg K} {start : Nat} {d0 : Disk K} {reverse : Bool} {stop : Nat} (hs : After reverse start stop)
    (kinds : List Kind) : kinds.Nodup → (∀ kind ∈ kinds, cfg.use kind = true) → ∀ r : Run K, Live cfg start d0 r →
    (∀ kind ∈ kinds, At cfg reverse start kind stop (r.st kind)) →
    let r' := kinds.foldl (fun r kind => r.save kind stop) r
    Live cfg start d0 r' ∧ r'.st = r.st ∧
      (∀ kind ∈ kinds, Complete cfg reverse kind start stop (r'.disk.integral kind stop)) ∧
      (∀ kind s, ¬ (kind ∈ kinds ∧ s = stop) → r'.disk.integral kind s = r.disk.integral kind s) := by
  induction kinds with
  | nil => intro _ _ r h _; exact ⟨h, rfl, by simp, by simp⟩
  | cons kd kinds ih =>
    intro hnd hu r h ha
    obtain ⟨h1, h2, h3, h4⟩ := save_spec h (hu kd (by simp)) hs (ha kd (by simp))
    obtain ⟨hn1, hn2⟩ := List.nodup_cons.1 hnd
    obtain ⟨g1, g2, g3, g4⟩ := ih hn2 (fun kind hk => hu kind (by simp [hk])) _ h1 (fun kind hk => by
      rw [h2]; exact ha kind (by simp [hk]))
    rw [List.foldl_cons]
    refine ⟨g1, g2.trans h2, ?_, ?_⟩
    · intro kind hk
      rcases List.mem_cons.1 hk with rfl | hk
      · rw [g4 kind stop (fun hc => hn1 hc.1)]; exact h3
      · exact g3 kind hk
    · intro kind s hne
      rw [g4 kind s (fun hc => hne ⟨by simp [hc.1], hc.2⟩), h4 kind s (fun hc => hne ⟨by simp [hc.1], hc.2⟩)]

theorem loop_spec {cfg : Cfg K} (hsq : ∀ x : K, 0 ≤ x → cfg.sqrt x * cfg.sqrt x = x) {start : Nat} {d0 : Disk K}
    {reverse : Bool} {kinds : List Kind} (hnd : kinds.Nodup) (hu : ∀ kind ∈ kinds, cfg.use kind = true)
    (stops : List Nat) :
    (∀ kind ∈ kinds, ∀ s ∈ stops, ∀ m, m < max start s → ∃ sl, cfg.slices kind m = some sl ∧ sl.Sound cfg.n) →
    ∀ (a : Nat), (a :: stops).Pairwise (After reverse) → (a = start ∨ After reverse start a) →
      ∀ r : Run K, Live cfg start d0 r → (∀ kind ∈ kinds, At cfg reverse start kind a (r.st kind)) →
      let r' := Run.loop cfg reverse kinds a stops r
      Live cfg start d0 r' ∧ (∀ kind ∈ kinds, ∀ s ∈ stops, Complete cfg reverse kind start s (r'.disk.integral kind s)) ∧
        ∀ kind s, ¬ (kind ∈ kinds ∧ s ∈ stops) → r'.disk.integral kind s = r.disk.integral kind s := by
  induction stops with
  | nil => intro _ a _ _ r h _; exact ⟨h, by simp, fun _ _ _ => rfl⟩
  | cons s stops ih =>
    intro hf a hpw hst r h hat
    have h1 : After reverse a s := (List.pairwise_cons.1 hpw).1 s (by simp)
    have h2 : After reverse start s := by
      rcases hst with rfl | hst
      · exact h1
      · exact after_trans hst h1
    obtain ⟨r1, r2, r3⟩ := range_spec hsq hnd (fun kind hk => hf kind hk s (by simp)) _ a (.inr h1) hst rfl r h hat
    obtain ⟨s1, s2, s3, s4⟩ := saves_spec h2 kinds hnd hu _ r1 r2
    obtain ⟨l1, l2, l3⟩ := ih (fun kind hk x hx => hf kind hk x (by simp [hx])) s (List.Pairwise.of_cons hpw) (.inr h2) _ s1
      (fun kind hk => by rw [s2]; exact r2 kind hk)
    have hnot : s ∉ stops := by
      intro hc
      have := (List.pairwise_cons.1 (List.Pairwise.of_cons hpw)).1 s hc
      cases reverse <;> simp only [After, Bool.false_eq_true, if_false, if_true] at this <;> omega
    refine ⟨l1, ?_, ?_⟩
    · intro kind hk x hx
      rcases List.mem_cons.1 hx with rfl | hx
      · have := l3 kind x (fun hc => hnot hc.2)
        show Complete cfg reverse kind start x ((Run.loop cfg reverse kinds x stops (r.upTo cfg reverse kinds a x)).disk.integral kind x)
        refine Eq.subst (motive := Complete cfg reverse kind start x) this.symm (s3 kind hk)
      · exact l2 kind hk x hx
    · intro kind x hne
      have hne2 : ¬ (kind ∈ kinds ∧ x = s) := fun hc => hne ⟨hc.1, by simp [hc.2]⟩
      exact (l3 kind x (fun hc => hne ⟨hc.1, by simp [hc.2]⟩)).trans ((s4 kind x hne2).trans (by rw [r3]))

end Verif.Scripts
