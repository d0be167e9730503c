import Verif.Units.Times
import Mathlib.Tactic.FieldSimp
import Mathlib.Tactic.Ring
import Mathlib.Tactic.Linarith

/-!
# The default rate, and rates in another unit of time
-/

set_option linter.unusedSectionVars false

namespace Verif.Units

open Verif.TempNet Verif.Trans

variable {K : Type} [Field K] [LinearOrder K] [IsStrictOrderedRing K]

theorem affine_strictMono {c : K} (hc : 0 < c) (s : K) : StrictMono (affine c s) := by
  intro a b h
  unfold affine
  have := mul_lt_mul_of_pos_left h hc
  linarith

theorem gaps_affine (c s : K) (l : List K) :
    gaps (l.map (affine c s)) = (gaps l).map fun d => c * d := by
  induction l with
  | nil => rfl
  | cons a l ih =>
    cases l with
    | nil => rfl
    | cons b r =>
      simp only [List.map_cons, gaps] at ih ⊢
      rw [ih]
      congr 1
      unfold affine
      ring

theorem insertionSort_scale {c : K} (hc : 0 < c) (l : List K) :
    (l.map fun d => c * d).insertionSort (· ≤ ·) = (l.insertionSort (· ≤ ·)).map fun d => c * d :=
  (List.map_insertionSort (r := (· ≤ ·)) (s := (· ≤ ·)) (fun d => c * d) l
    (fun _ _ _ _ => (mul_le_mul_iff_right₀ hc).symm)).symm

theorem median_scale {c : K} (hc : 0 < c) (l : List K) :
    median (l.map fun d => c * d) = (median l).map fun d => c * d := by
  unfold median
  simp only [insertionSort_scale hc, List.length_map, List.getElem?_map]
  split
  · rfl
  · split
    · rfl
    · cases (l.insertionSort (· ≤ ·))[(l.insertionSort (· ≤ ·)).length / 2 - 1]? with
      | none => rfl
      | some a =>
        cases (l.insertionSort (· ≤ ·))[(l.insertionSort (· ≤ ·)).length / 2]? with
        | none => rfl
        | some b =>
          simp only [Option.map_some, Option.some.injEq]
          ring

theorem defaultRate_affine {c : K} (hc : 0 < c) (s : K) (times : List K) :
    defaultRate (times.map (affine c s)) = (defaultRate times).map fun r => r / c := by
  unfold defaultRate
  rw [gaps_affine, median_scale hc, Option.map_map, Option.map_map]
  congr 1
  funext m
  simp only [Function.comp]
  rw [one_div_mul_eq_div_one_div_aux]
where
  one_div_mul_eq_div_one_div_aux {c m : K} : 1 / (c * m) = 1 / m / c := by
    rw [div_div, mul_comm]

theorem median_spec {l : List K} (hne : l ≠ []) : ∃ m, median l = some m ∧ IsMedian l m := by
  have hperm := List.perm_insertionSort (· ≤ ·) l
  have hlen := hperm.length_eq
  have hpos : 0 < l.length := List.length_pos_iff.2 hne
  have hsorted : (l.insertionSort (· ≤ ·)).Pairwise (· ≤ ·) := List.pairwise_insertionSort _ l
  have hk : ∀ k, k < l.length → ∃ a, (l.insertionSort (· ≤ ·))[k]? = some a :=
    fun k h => ⟨_, List.getElem?_eq_getElem (by omega)⟩
  unfold median
  simp only [hlen]
  rw [if_neg (by omega)]
  by_cases hodd : l.length % 2 = 1
  · rw [if_pos hodd]
    obtain ⟨a, ha⟩ := hk (l.length / 2) (by omega)
    refine ⟨a, ha, _, hperm, hsorted, a, a, ?_, ha, by ring⟩
    rw [show (l.length - 1) / 2 = l.length / 2 by omega]
    exact ha
  · rw [if_neg hodd]
    obtain ⟨a, ha⟩ := hk (l.length / 2 - 1) (by omega)
    obtain ⟨b, hb⟩ := hk (l.length / 2) (by omega)
    refine ⟨(a + b) / 2, by rw [ha, hb], _, hperm, hsorted, a, b, ?_, hb, rfl⟩
    rw [show (l.length - 1) / 2 = l.length / 2 - 1 by omega]
    exact ha

theorem countP_le_of_drop {s : List K} (p : K → Bool) (k : Nat) (h : ∀ x ∈ s.drop k, p x = false) :
    s.countP p ≤ k := by
  conv_lhs => rw [← List.take_append_drop k s]
  have h0 : (s.drop k).countP p = 0 := List.countP_eq_zero.2 fun x hx => by simp [h x hx]
  rw [List.countP_append, h0]
  have := List.countP_le_length (p := p) (l := s.take k)
  have := List.length_take_le k s
  omega

theorem countP_le_of_take {s : List K} (p : K → Bool) (k : Nat) (h : ∀ x ∈ s.take k, p x = false) :
    s.countP p ≤ s.length - k := by
  conv_lhs => rw [← List.take_append_drop k s]
  rw [List.countP_append, List.countP_eq_zero.2 (fun x hx => by simp [h x hx])]
  have := List.countP_le_length (p := p) (l := s.drop k)
  rw [List.length_drop] at this
  omega

/-- At most half of the list is below a median, at most half above. -/
theorem isMedian_halves {l : List K} {m : K} (h : IsMedian l m) :
    2 * l.countP (fun x => decide (x < m)) ≤ l.length ∧
      2 * l.countP (fun x => decide (m < x)) ≤ l.length := by
  obtain ⟨s, hperm, hs, a, b, ha, hb, rfl⟩ := h
  have hlen := hperm.length_eq
  obtain ⟨ha', rfl⟩ := List.getElem?_eq_some_iff.1 ha
  obtain ⟨hb', rfl⟩ := List.getElem?_eq_some_iff.1 hb
  have hle : ∀ i j (hi : i < s.length) (hj : j < s.length), i ≤ j → s[i] ≤ s[j] := by
    intro i j hi hj hij
    rcases Nat.eq_or_lt_of_le hij with rfl | hlt
    · exact le_rfl
    · exact List.pairwise_iff_getElem.1 hs i j hi hj hlt
  have hab := hle _ _ ha' hb' (by omega)
  have e1 : s.countP (fun x => decide (x < (s[(l.length - 1) / 2] + s[l.length / 2]) / 2)) ≤
      l.length / 2 := by
    refine countP_le_of_drop _ _ fun x hx => ?_
    obtain ⟨i, hi, rfl⟩ := List.getElem_of_mem hx
    rw [List.length_drop] at hi
    rw [List.getElem_drop]
    have := hle (l.length / 2) (l.length / 2 + i) hb' (by omega) (by omega)
    simp only [decide_eq_false_iff_not, not_lt]
    linarith
  have e2 : s.countP (fun x => decide ((s[(l.length - 1) / 2] + s[l.length / 2]) / 2 < x)) ≤
      s.length - ((l.length - 1) / 2 + 1) := by
    refine countP_le_of_take _ _ fun x hx => ?_
    obtain ⟨i, hi, rfl⟩ := List.getElem_of_mem hx
    rw [List.length_take] at hi
    rw [List.getElem_take]
    have := hle i ((l.length - 1) / 2) (by omega) ha' (by omega)
    simp only [decide_eq_false_iff_not, not_lt]
    linarith
  rw [← hperm.countP_eq, ← hperm.countP_eq]
  omega

theorem isMedian_pos {l : List K} {m : K} (h : IsMedian l m) (hp : ∀ x ∈ l, 0 < x) : 0 < m := by
  obtain ⟨s, hperm, _, a, b, ha, hb, rfl⟩ := h
  have h1 := hp a (hperm.mem_iff.1 (List.mem_of_getElem? ha))
  have h2 := hp b (hperm.mem_iff.1 (List.mem_of_getElem? hb))
  linarith

theorem gaps_length (l : List K) : (gaps l).length = l.length - 1 := by
  induction l with
  | nil => rfl
  | cons a l ih =>
    cases l with
    | nil => rfl
    | cons b r => simp only [gaps, List.length_cons] at ih ⊢; omega

theorem gaps_getElem (l : List K) (k : Nat) (hk : k + 1 < l.length) :
    (gaps l)[k]? = some (l[k + 1] - l[k]) := by
  induction l generalizing k with
  | nil => simp at hk
  | cons a l ih =>
    cases l with
    | nil => simp at hk
    | cons b r =>
      cases k with
      | zero => rfl
      | succ k =>
        simp only [gaps, List.getElem?_cons_succ, List.getElem_cons_succ]
        exact ih k (by simpa using hk)

theorem gaps_pos {l : List K} (h : l.Pairwise (· < ·)) : ∀ d ∈ gaps l, 0 < d := by
  intro d hd
  obtain ⟨k, hk, rfl⟩ := List.getElem_of_mem hd
  rw [gaps_length] at hk
  have e := gaps_getElem l k (by omega)
  rw [List.getElem?_eq_getElem (by rw [gaps_length]; exact hk)] at e
  simp only [Option.some.injEq] at e
  rw [e, sub_pos]
  exact List.pairwise_iff_getElem.1 h k (k + 1) (by omega) (by omega) (by omega)

/-! ### inter-event matrices -/

theorem interMats_clock {c : K} (hc : 0 < c) (s : K) (n : Nat) (E : Mat K → Mat K)
    (times : List K) (L : Laps K) (hL : L.kStop < times.length) (r : K) :
    interMats n E (times.map (affine c s)) (Laps.clock (affine c s) L) (r / c) false =
      interMats n E times L r false := by
  unfold interMats
  have key : ((((times.map (affine c s)).take (Laps.clock (affine c s) L).kStop).drop
        (Laps.clock (affine c s) L).kStart).zipIdx.map fun x =>
        interMat n E (r / c) false ((Laps.clock (affine c s) L).laplacians.getD x.2 eye) x.1
          ((times.map (affine c s)).getD ((Laps.clock (affine c s) L).kStart + x.2 + 1) 0)) =
      (((times.take L.kStop).drop L.kStart).zipIdx.map fun x =>
        interMat n E r false (L.laplacians.getD x.2 eye) x.1 (times.getD (L.kStart + x.2 + 1) 0)) := by
    simp only [Laps.clock]
    rw [← List.map_take, ← List.map_drop, List.zipIdx_map, List.map_map]
    refine List.map_congr_left fun x hx => ?_
    obtain ⟨t, k⟩ := x
    have hk := List.mem_zipIdx hx
    have hlt : L.kStart + k + 1 < times.length := by
      have := hk.2.1
      rw [List.length_drop, List.length_take] at this
      omega
    have hget : (times.map (affine c s)).getD (L.kStart + k + 1) 0 =
        affine c s (times.getD (L.kStart + k + 1) 0) := by
      simp [List.getD_eq_getElem?_getD, hlt]
    show interMat n E (r / c) false (L.laplacians.getD k eye) (affine c s t)
      ((times.map (affine c s)).getD (L.kStart + k + 1) 0) = interMat n E r false
        (L.laplacians.getD k eye) t (times.getD (L.kStart + k + 1) 0)
    rw [hget]
    generalize times.getD (L.kStart + k + 1) 0 = u
    unfold interMat
    simp only [Bool.false_eq_true, if_false]
    congr 1
    congr 1
    funext i j
    unfold affine
    field_simp
    ring
  simp only [key]

/-! ### the network object -/

/-- The attributes of the network in another unit: times of the window, and rates per new
unit of time. -/
def State.clock (c s : K) (st : State K) : State K :=
  ⟨st.laps.map (Laps.clock (affine c s)), st.interT.map fun p => (p.1 / c, p.2),
    st.T.map fun p => (p.1 / c, p.2)⟩

/-- A call in another unit: boundaries of windows on the new clock, rates per new unit. -/
def Op.clock (c s : K) : Op K → Op K
  | .laplacians a b => .laplacians (a.map (affine c s)) (b.map (affine c s))
  | .inter l f a b => .inter (l / c) f (a.map (affine c s)) (b.map (affine c s))
  | .trans l r t v => .trans (l / c) r t v

/-- The interval lengths are used: no call with `fix_tau_k`. -/
def UsesTimes : Op K → Prop
  | .inter _ f _ _ => f = false
  | _ => True

theorem lookup_scale {V : Type} {c : K} (hc : c ≠ 0) (d : List (K × V)) (r : K) :
    (d.map fun p => (p.1 / c, p.2)).lookup (r / c) = d.lookup r := by
  induction d with
  | nil => rfl
  | cons p d ih =>
    obtain ⟨k, v⟩ := p
    simp only [List.map_cons, List.lookup_cons]
    by_cases h : r = k
    · subst h; simp
    · have : r / c ≠ k / c := fun e => h ((div_left_inj' hc).1 e)
      rw [beq_false_of_ne this, beq_false_of_ne h]
      exact ih

theorem setKey_scale {V : Type} {c : K} (hc : c ≠ 0) (d : List (K × V)) (r : K) (v : V) :
    setKey (d.map fun p => (p.1 / c, p.2)) (r / c) v =
      (setKey d r v).map fun p => (p.1 / c, p.2) := by
  unfold setKey
  rw [List.map_map, List.map_map]
  refine List.map_congr_left fun p _ => ?_
  simp only [Function.comp, div_left_inj' hc]
  split <;> rfl

/-- The Laplacians held belong to a window inside the times. -/
def LapsInside (env : Env K) (st : State K) : Prop :=
  ∀ L, st.laps = some L → L.kStop < (timesOf env.events).length

theorem computeLaplacians_inside {n : Nat} {evs : List (Event Nat K)} {sf : Nat → Bool}
    {a b : Option K} {L : Laps K} (h : computeLaplacians n evs sf a b = .ok L) :
    L.kStop < (timesOf evs).length := by
  unfold computeLaplacians at h
  simp only at h
  cases hw : window (timesOf evs) a b with
  | error e => rw [hw] at h; simp at h
  | ok w =>
    rw [hw] at h
    obtain ⟨x, y⟩ := w
    have hlt := window_lt (uniqueSorted_lt _) hw
    simp only at h
    split at h
    · simp at h
    · split at h
      · simp at h
      · simp only [Except.ok.injEq] at h
        subst h
        exact hlt.2

/-- The network in another unit of time. -/
def Env.clock (c s : K) (env : Env K) : Env K :=
  { env with events := env.events.map (Event.clock (affine c s)) }

theorem laplacians_clock {c : K} (hc : 0 < c) (s : K) (env : Env K) (st : State K)
    (a b : Option K) :
    (State.clock c s st).laplacians (Env.clock c s env) (a.map (affine c s)) (b.map (affine c s)) =
      (st.laplacians env a b).map (State.clock c s) := by
  unfold State.laplacians
  simp only [Env.clock, computeLaplacians_clock (affine_strictMono hc s)]
  cases computeLaplacians env.n env.events env.startFirst a b with
  | error e => rfl
  | ok L => rfl

theorem ensureLaps_clock {c : K} (hc : 0 < c) (s : K) (env : Env K) (st : State K)
    (a b : Option K) :
    (State.clock c s st).ensureLaps (Env.clock c s env) (a.map (affine c s)) (b.map (affine c s)) =
      (st.ensureLaps env a b).map fun p => (State.clock c s p.1, Laps.clock (affine c s) p.2) := by
  unfold State.ensureLaps
  obtain ⟨laps, iT, T⟩ := st
  cases laps with
  | some L => rfl
  | none =>
    simp only [State.clock, Option.map_none, Env.clock,
      computeLaplacians_clock (affine_strictMono hc s)]
    cases computeLaplacians env.n env.events env.startFirst a b with
    | error e => rfl
    | ok L => rfl

theorem ensureLaps_inside {env : Env K} {st st' : State K} {L : Laps K} {a b : Option K}
    (hin : LapsInside env st) (h : st.ensureLaps env a b = .ok (st', L)) :
    L.kStop < (timesOf env.events).length ∧ LapsInside env st' ∧ st'.interT = st.interT := by
  unfold State.ensureLaps at h
  cases hl : st.laps with
  | some L0 =>
    rw [hl] at h
    simp only [Except.ok.injEq, Prod.mk.injEq] at h
    obtain ⟨rfl, rfl⟩ := h
    exact ⟨hin _ hl, hin, rfl⟩
  | none =>
    rw [hl] at h
    simp only at h
    cases hL : computeLaplacians env.n env.events env.startFirst a b with
    | error e => rw [hL] at h; simp at h
    | ok L0 =>
      rw [hL] at h
      simp only [Except.ok.injEq, Prod.mk.injEq] at h
      obtain ⟨rfl, rfl⟩ := h
      refine ⟨computeLaplacians_inside hL, ?_, rfl⟩
      intro L' h'
      simp only [Option.some.injEq] at h'
      subst h'
      exact computeLaplacians_inside hL

theorem step_clock {c : K} (hc : 0 < c) (s : K) (env : Env K) (st : State K) (op : Op K)
    (hin : LapsInside env st) (hu : UsesTimes op) :
    (State.clock c s st).step (Env.clock c s env) (Op.clock c s op) =
      (st.step env op).map (State.clock c s) := by
  have hc0 : c ≠ 0 := hc.ne'
  cases op with
  | laplacians a b => exact laplacians_clock hc s env st a b
  | inter l f a b =>
    simp only [UsesTimes] at hu
    subst hu
    simp only [State.step, Op.clock, State.inter, ensureLaps_clock hc]
    cases he : st.ensureLaps env a b with
    | error e => rfl
    | ok p =>
      obtain ⟨st', L⟩ := p
      obtain ⟨hL, _, _⟩ := ensureLaps_inside hin he
      simp only [Except.map]
      have hlk : (State.clock c s st').interT.lookup (l / c) = st'.interT.lookup l :=
        lookup_scale hc0 st'.interT l
      rw [hlk]
      cases st'.interT.lookup l with
      | some _ => rfl
      | none =>
        simp only [Env.clock, timesOf_clock (affine_strictMono hc s), interMats_clock hc s _ _ _ _ hL]
        rfl
  | trans l r t v =>
    simp only [State.step, Op.clock, State.trans]
    have h1 : (State.clock c s st).interT.lookup (l / c) = st.interT.lookup l :=
      lookup_scale hc0 st.interT l
    have h2 : (State.clock c s st).T.lookup (l / c) = st.T.lookup l := lookup_scale hc0 st.T l
    rw [h1, h2]
    cases st.interT.lookup l with
    | none => rfl
    | some ms =>
      cases st.T.lookup l with
      | some _ => rfl
      | none =>
        simp only [Except.map, State.clock, Env.clock, setKey_scale hc0, List.map_cons]

theorem step_inside {env : Env K} {st st' : State K} {op : Op K} (hin : LapsInside env st)
    (h : st.step env op = .ok st') : LapsInside env st' := by
  cases op with
  | laplacians a b =>
    simp only [State.step, State.laplacians] at h
    cases hL : computeLaplacians env.n env.events env.startFirst a b with
    | error e => rw [hL] at h; simp at h
    | ok L0 =>
      rw [hL] at h
      simp only [Except.ok.injEq] at h
      subst h
      intro L' h'
      simp only [Option.some.injEq] at h'
      subst h'
      exact computeLaplacians_inside hL
  | inter l f a b =>
    simp only [State.step, State.inter] at h
    cases he : st.ensureLaps env a b with
    | error e => rw [he] at h; simp at h
    | ok p =>
      obtain ⟨s1, L⟩ := p
      obtain ⟨_, h1, _⟩ := ensureLaps_inside hin he
      rw [he] at h
      simp only at h
      split at h
      · simp only [Except.ok.injEq] at h
        subst h; exact h1
      · simp only [Except.ok.injEq] at h
        subst h; exact h1
  | trans l r t v =>
    simp only [State.step, State.trans] at h
    split at h
    · simp at h
    · split at h
      · simp only [Except.ok.injEq] at h
        subst h; exact hin
      · simp only [Except.ok.injEq] at h
        subst h; exact hin

theorem run_clock {c : K} (hc : 0 < c) (s : K) (env : Env K) (ops : List (Op K)) (st : State K)
    (hin : LapsInside env st) (hu : ∀ op ∈ ops, UsesTimes op) :
    (ops.map (Op.clock c s)).foldlM (State.step (Env.clock c s env)) (State.clock c s st) =
      (ops.foldlM (State.step env) st).map (State.clock c s) := by
  induction ops generalizing st with
  | nil => rfl
  | cons op ops ih =>
    rw [List.map_cons, List.foldlM_cons, List.foldlM_cons,
      step_clock hc s env st op hin (hu op (List.mem_cons_self ..))]
    cases hs : st.step env op with
    | error e => rfl
    | ok st' =>
      exact ih st' (step_inside hin hs) fun op h => hu op (List.mem_cons_of_mem _ h)

end Verif.Units
